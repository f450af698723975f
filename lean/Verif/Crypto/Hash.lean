import Verif.Tensor.Lemmas
import Mathlib.Data.List.GetD
/-!
# C96: `hash_bytes` and `hash_batch` (dialects/crypto.py:254-277, 410-422; backends/crypto_impl.py:292-341)

An array element is the list of its bytes; `tobytes` concatenates them in row-major order.  SHA-256 is a parameter `sha`.
-/
namespace Verif.Crypto.Hash
open Verif.Tensor

/-- Bytes. -/
abbrev Bytes := List UInt8

/-- `arr.tobytes()` -/
def tobytes (l : List Bytes) : Bytes := l.flatten

/-- `hash_impl` of a tensor: one digest of all its bytes (crypto_impl.py:292-309) -/
def hashImpl (sha : Bytes → Bytes) (a : Arr Bytes) : Arr UInt8 := ⟨[32], sha (tobytes a.data)⟩

/-- `flat_in[i]` of a `(-1, D)` view -/
def flatRow (data : List Bytes) (D i : Nat) : List Bytes := (data.drop (i * D)).take D

/-- `hash_batch_impl` (crypto_impl.py:312-341).  `reshape(-1, 0)` raises `ValueError`. -/
def hashBatchImpl (sha : Bytes → Bytes) (a : Arr Bytes) : Except Err (Arr UInt8) :=
  if a.shape.length ≤ 1 then .ok ⟨[32], sha (tobytes a.data)⟩
  else
    let batch := a.shape.dropLast
    let D := a.shape.getLastD 0
    if D = 0 then .error .valueError
    else
      let num := a.data.length / D
      .ok ⟨batch ++ [32], (List.range num).flatMap fun i => sha (tobytes (flatRow a.data D i))⟩

/-- `_hash_batch_ae` (dialects/crypto.py:260-277) on the shape; the element type is `u8` -/
def hashBatchAe (shape : List Int) : List Int :=
  if shape.length < 2 then [32] else shape.dropLast ++ [32]

/-! ## Specification -/

/-- The bytes of the row of `a` at a batch index: its `D` elements one after the other. -/
def rowBytes (a : Arr Bytes) (idx : List Nat) (D : Nat) : Option Bytes :=
  ((List.range D).mapM fun j => (a.get (idx ++ [j])).toOption).map List.flatten

/-! ## Proofs -/

theorem size_snoc (bs : List Nat) (D : Nat) : size (bs ++ [D]) = size bs * D := by
  induction bs with
  | nil => simp [size]
  | cons b r ih => simp only [List.cons_append, size, ih, Nat.mul_assoc]

theorem ravel_snoc (bs idx : List Nat) (D j : Nat) (h : InB idx bs) : ravel (bs ++ [D]) (idx ++ [j]) = ravel bs idx * D + j := by
  induction h with
  | nil => simp [ravel, size]
  | cons h1 h2 ih =>
    simp only [List.cons_append, ravel, ih, size_snoc]
    ring

theorem inB_iff (idx sh : List Nat) : inB idx sh = true ↔ InB idx sh := by
  induction idx generalizing sh with
  | nil =>
    cases sh with
    | nil => exact ⟨fun _ => .nil, fun _ => rfl⟩
    | cons d r => exact ⟨fun h => by simp [inB] at h, fun h => by cases h⟩
  | cons i ir ih =>
    cases sh with
    | nil => exact ⟨fun h => by simp [inB] at h, fun h => by cases h⟩
    | cons d r =>
      simp only [inB, Bool.and_eq_true, decide_eq_true_eq, ih]
      exact ⟨fun h => .cons h.1 h.2, fun h => by cases h with | cons h1 h2 => exact ⟨h1, h2⟩⟩

theorem inB_snoc {idx bs : List Nat} {j D : Nat} (h : InB idx bs) (hj : j < D) : InB (idx ++ [j]) (bs ++ [D]) := by
  induction h with
  | nil => exact .cons hj .nil
  | cons h1 _ ih => exact .cons h1 ih

theorem get_eq {α : Type} (a : Arr α) {idx : List Nat} (h : InB idx a.shape) : (a.get idx).toOption = a.data[ravel a.shape idx]? := by
  unfold Arr.get
  rw [if_pos ((inB_iff _ _).2 h)]
  cases a.data[ravel a.shape idx]? <;> rfl

theorem mapM_getElem? {α : Type} (l : List α) (off D : Nat) (h : off + D ≤ l.length) :
    (List.range D).mapM (fun j => l[off + j]?) = some ((l.drop off).take D) := by
  induction D generalizing off with
  | zero => simp
  | succ D ih =>
    rw [List.range_succ_eq_map, List.mapM_cons]
    have h0 : off < l.length := by omega
    have hm : ((List.range D).map Nat.succ).mapM (fun j => l[off + j]?) = (List.range D).mapM (fun j => l[off + 1 + j]?) := by
      rw [List.mapM_map]
      congr 1
      funext j
      simp only [Function.comp_apply]
      congr 1
      omega
    rw [hm, ih (off + 1) (by omega)]
    have e : (l.drop off).take (D + 1) = l[off] :: (l.drop (off + 1)).take D := by
      rw [List.drop_eq_getElem_cons h0, List.take_succ_cons]
    rw [e]
    simp [List.getElem?_eq_getElem h0]

theorem mapM_congr' {α β : Type} {f g : α → Option β} : ∀ {l : List α}, (∀ x ∈ l, f x = g x) → l.mapM f = l.mapM g
  | [], _ => rfl
  | x :: r, h => by
    rw [List.mapM_cons, List.mapM_cons, h x (List.mem_cons_self ..), mapM_congr' (fun y hy => h y (List.mem_cons_of_mem _ hy))]

theorem row_eq {a : Arr Bytes} (hwf : a.data.length = size a.shape) {bs idx : List Nat} {D : Nat} (hs : a.shape = bs ++ [D]) (h : InB idx bs) :
    rowBytes a idx D = some (tobytes (flatRow a.data D (ravel bs idx))) := by
  have hlt := ravel_lt _ _ h
  have hlen : ravel bs idx * D + D ≤ a.data.length := by
    rw [hwf, hs, size_snoc]
    have : (ravel bs idx + 1) * D ≤ size bs * D := Nat.mul_le_mul_right D hlt
    have e : (ravel bs idx + 1) * D = ravel bs idx * D + D := by ring
    omega
  unfold rowBytes
  have : (List.range D).mapM (fun j => (a.get (idx ++ [j])).toOption) = (List.range D).mapM (fun j => a.data[ravel bs idx * D + j]?) := by
    apply mapM_congr'
    intro j hj
    rw [get_eq a (by rw [hs]; exact inB_snoc h (List.mem_range.1 hj)), hs, ravel_snoc _ _ _ _ h]
  rw [this, mapM_getElem? _ _ _ hlen]
  rfl

/-- **C96** Batch hashing: a tensor of shape `(…batch, D)`, `D > 0`, gives shape `(…batch, 32)` and the 32 bytes at each batch
index are the digest of the row at that index alone. -/
theorem hash_batch_rows (sha : Bytes → Bytes) (hsha : ∀ b, (sha b).length = 32) (a : Arr Bytes) (hwf : a.data.length = size a.shape)
    (bs : List Nat) (D : Nat) (hs : a.shape = bs ++ [D]) (hbs : bs ≠ []) (hD : 0 < D) :
    ∃ out, hashBatchImpl sha a = .ok out ∧ out.shape = bs ++ [32] ∧ out.data.length = size out.shape ∧
      ∀ idx, InB idx bs → ∃ row, rowBytes a idx D = some row ∧ ∀ j, j < 32 → (out.get (idx ++ [j])).toOption = (sha row)[j]? := by
  have hlen : ¬ a.shape.length ≤ 1 := by
    rw [hs, List.length_append]
    have := List.length_pos_iff.2 hbs
    simp only [List.length_singleton]; omega
  have hlast : a.shape.getLastD 0 = D := by rw [hs]; simp [List.getLastD_eq_getLast?]
  have hdrop : a.shape.dropLast = bs := by rw [hs]; simp
  have hnum : a.data.length / D = size bs := by rw [hwf, hs, size_snoc, Nat.mul_div_cancel _ hD]
  refine ⟨⟨bs ++ [32], (List.range (size bs)).flatMap fun i => sha (tobytes (flatRow a.data D i))⟩, ?_, rfl, ?_, ?_⟩
  · unfold hashBatchImpl
    rw [if_neg hlen]
    simp only [hlast, hdrop, hnum]
    rw [if_neg (by omega)]
  · rw [size_snoc]
    exact flatMap_range_length _ _ _ (fun i => hsha _)
  · intro idx h
    refine ⟨_, row_eq hwf hs h, fun j hj => ?_⟩
    rw [get_eq _ (inB_snoc h hj)]
    simp only [ravel_snoc _ _ _ _ h]
    rw [flatMap_range_get (size bs) _ 32 _ j (fun i => hsha _) (ravel_lt _ _ h) hj]

/-- **C96** A vector, or a scalar, is one row. -/
theorem hash_batch_single (sha : Bytes → Bytes) (a : Arr Bytes) (h : a.shape.length ≤ 1) :
    hashBatchImpl sha a = .ok (hashImpl sha a) := by
  unfold hashBatchImpl
  rw [if_pos h]; rfl

/-- **C96** The declared shape is the shape of the result, whenever there is a result. -/
theorem hash_batch_type (sha : Bytes → Bytes) (a : Arr Bytes) (out : Arr UInt8) (h : hashBatchImpl sha a = .ok out) :
    out.shape.map (Int.ofNat) = hashBatchAe (a.shape.map Int.ofNat) := by
  unfold hashBatchImpl at h
  unfold hashBatchAe
  by_cases hl : a.shape.length ≤ 1
  · rw [if_pos hl] at h; cases h
    rw [if_pos (by rw [List.length_map]; omega)]; rfl
  · rw [if_neg hl] at h
    dsimp only at h
    rw [if_neg (by rw [List.length_map]; omega)]
    split at h
    · cases h
    · cases h
      simp [List.map_dropLast]

/-- **C96** Only the row matters: equal rows have equal digests, at whatever place of whatever tensor. -/
theorem hash_batch_local (sha : Bytes → Bytes) (hsha : ∀ b, (sha b).length = 32) (a a' : Arr Bytes) (hwf : a.data.length = size a.shape)
    (hwf' : a'.data.length = size a'.shape) (bs bs' : List Nat) (D D' : Nat) (hs : a.shape = bs ++ [D]) (hs' : a'.shape = bs' ++ [D'])
    (hbs : bs ≠ []) (hbs' : bs' ≠ []) (hD : 0 < D) (hD' : 0 < D') (idx idx' : List Nat) (hi : InB idx bs) (hi' : InB idx' bs')
    (hrow : rowBytes a idx D = rowBytes a' idx' D') (out out' : Arr UInt8) (h : hashBatchImpl sha a = .ok out)
    (h' : hashBatchImpl sha a' = .ok out') (j : Nat) (hj : j < 32) : (out.get (idx ++ [j])).toOption = (out'.get (idx' ++ [j])).toOption := by
  obtain ⟨o, ho, _, _, hr⟩ := hash_batch_rows sha hsha a hwf bs D hs hbs hD
  obtain ⟨o', ho', _, _, hr'⟩ := hash_batch_rows sha hsha a' hwf' bs' D' hs' hbs' hD'
  rw [h] at ho; cases ho
  rw [h'] at ho'; cases ho'
  obtain ⟨r, h1, h2⟩ := hr idx hi
  obtain ⟨r', h1', h2'⟩ := hr' idx' hi'
  rw [h1, h1'] at hrow; cases hrow
  rw [h2 j hj, h2' j hj]

/-- **C96** Rows of no bytes have a digest and a declared type, but the run raises. -/
theorem hash_batch_empty_violated (sha : Bytes → Bytes) (n : Nat) :
    hashBatchAe [(n : Int), 0] = [(n : Int), 32] ∧ hashBatchImpl sha ⟨[n, 0], []⟩ = .error .valueError := ⟨rfl, rfl⟩

/-- A digest for examples: the first byte repeated. -/
def toySha (b : Bytes) : Bytes := List.replicate 32 (b.headD 0)

example : ∃ out, hashBatchImpl toySha ⟨[2, 2], [[1], [2], [3], [4]]⟩ = .ok out ∧ (out.get [1, 31]).toOption = some 3 ∧ out.shape = [2, 32] :=
  ⟨⟨[2, 32], List.replicate 32 1 ++ List.replicate 32 3⟩, by decide +kernel, by decide +kernel, rfl⟩

example : (∀ b, (toySha b).length = 32) ∧ rowBytes ⟨[2, 2], [[1], [2], [3], [4]]⟩ [1] 2 = some [3, 4] :=
  ⟨fun b => by simp [toySha], by decide +kernel⟩

end Verif.Crypto.Hash
