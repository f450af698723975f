import Verif.Mpc.Silver
import Verif.Kern.OkvsSolve
/-!
# C122 — the reference encoder, the syndrome decoder and the structure check (mplang/libs/mpc/vole/ldpc.py)

A matrix is given by its rows (ascending column indices), as in `Verif.Mpc.Silver`.
-/
namespace Verif.Mpc
open Verif.Kern

/-- `H.toarray()`: the 0/1 matrix -/
def denseRows (n : Nat) (rows : List (List Nat)) : List (List Nat) := rows.map fun r => (List.range n).map fun j => if r.contains j then 1 else 0

/-- `jnp.bitwise_and` of a block with a matrix entry, broadcast over both words (ldpc.py:346) -/
def andBlk (b : Blk) (h : Nat) : Blk := (b.1 &&& h, b.2 &&& h)

/-- `ldpc_encode_dense_jax` (ldpc.py:318-364): a scan over the columns from zero -/
def denseEncode (msg : List Blk) (h : List (List Nat)) : List Blk :=
  h.map fun row => (row.zip msg).foldl (fun acc e => mmXor acc (andBlk e.2 e.1)) (0, 0)

/-- `H.getcol(j).toarray().flatten()` (ldpc.py:163) -/
def colOf (rows : List (List Nat)) (j : Nat) : List Nat := rows.map fun r => if r.contains j then 1 else 0

/-- `np.sum(col & (remaining != 0))` (ldpc.py:165) -/
def reduction (col rem : List Nat) : Nat := ((col.zip rem).map fun e => if e.2 = 0 then 0 else e.1).sum

/-- the search for the best column (ldpc.py:159-172): the first one that reduces most, `none` if nothing reduces -/
def bestCol (rows : List (List Nat)) (rem : List Nat) : List Nat → Option Nat × Nat → Option Nat × Nat
  | [], b => b
  | j :: js, b => bestCol rows rem js (if b.2 < reduction (colOf rows j) rem then (some j, reduction (colOf rows j) rem) else b)

/-- the loop of `ldpc_decode_syndrome` for a vector of bits (ldpc.py:157-190) -/
def decodeLoop (rows : List (List Nat)) (n : Nat) : Nat → List Nat → List Nat → List Nat
  | 0, err, _ => err
  | w + 1, err, rem => match (bestCol rows rem (List.range n) (none, 0)).1 with
    | none => err
    | some j => decodeLoop rows n w (err.set j 1) (List.zipWith (fun a b => (a + b) % 2) rem (colOf rows j))

/-- `ldpc_decode_syndrome` for a vector of bits (ldpc.py:124-192) -/
def decodeBits (rows : List (List Nat)) (n : Nat) (syn : List Nat) (w : Nat) : List Nat := decodeLoop rows n w (List.replicate n 0) syn

/-- the reduction for blocks (ldpc.py:167): both words count -/
def reductionB (col : List Nat) (rem : List Blk) : Nat :=
  ((col.zip rem).map fun e => (if e.2.1 = 0 then 0 else e.1) + (if e.2.2 = 0 then 0 else e.1)).sum

/-- the search for the best column, for blocks (ldpc.py:159-172) -/
def bestColB (rows : List (List Nat)) (rem : List Blk) : List Nat → Option Nat × Nat → Option Nat × Nat
  | [], b => b
  | j :: js, b => bestColB rows rem js (if b.2 < reductionB (colOf rows j) rem then (some j, reductionB (colOf rows j) rem) else b)

/-- the loop for blocks (ldpc.py:157-190): the error is set to ones and xored into the syndrome -/
def decodeLoopB (rows : List (List Nat)) (n : Nat) : Nat → List Blk → List Blk → List Blk
  | 0, err, _ => err
  | w + 1, err, rem => match (bestColB rows rem (List.range n) (none, 0)).1 with
    | none => err
    | some j => decodeLoopB rows n w (err.set j (1, 1)) (List.zipWith (fun a b => if b = 0 then a else mmXor a (1, 1)) rem (colOf rows j))

/-- `ldpc_decode_syndrome` for blocks (ldpc.py:124-192) -/
def decodeBlocks (rows : List (List Nat)) (n : Nat) (syn : List Blk) (w : Nat) : List Blk := decodeLoopB rows n w (List.replicate n (0, 0)) syn

/-- `verify_ldpc_structure` (ldpc.py:232-262) with exact fractions; `none`: division by zero -/
def verifyStructure (rows : List (List Nat)) (n : Nat) : Option Bool :=
  if rows.length * n = 0 then none else
  if rows.length * n < 10 * (rows.map List.length).sum then some false else
  if (rows.map List.length).any (· = 0) then some false else
  some (!((rows.map List.length).sum < 2 * rows.length || 20 * rows.length < (rows.map List.length).sum))

/-- `get_silver_params` (ldpc.py:199-214) -/
def silverParams (n : Nat) : Nat × Nat × Nat := (n, max (n / 10) 128, 64)

/-! ## The reference encoder -/

/-- the lowest bit of both words -/
def lowBits (b : Blk) : Blk := (b.1 % 2, b.2 % 2)

theorem xor_bit0 (a b : Nat) : (a ^^^ b) % 2 = (a % 2) ^^^ (b % 2) := by
  have := Nat.xor_mod_two_pow (a := a) (b := b) (n := 1)
  simpa using this

theorem lowBits_xor (a b : Blk) : lowBits (mmXor a b) = mmXor (lowBits a) (lowBits b) := by
  simp only [lowBits, mmXor, xor_bit0]

theorem foldl_xor (l : List (Nat × Blk)) (acc : Blk) :
    l.foldl (fun acc e => mmXor acc (andBlk e.2 e.1)) acc = mmXor acc (xorAll (l.map fun e => andBlk e.2 e.1)) := by
  induction l generalizing acc with
  | nil => simp [xorAll, mmXor_zero]
  | cons e l ih => rw [List.foldl_cons, ih]; simp only [List.map_cons, xorAll, List.foldr_cons, mmXor_assoc]

theorem sorted_filter (n : Nat) (r : List Nat) (h1 : r.Pairwise (· < ·)) (h2 : ∀ c ∈ r, c < n) : (List.range n).filter (fun j => r.contains j) = r := by
  have hp : ((List.range n).filter (fun j => r.contains j)).Perm r := by
    rw [List.perm_ext_iff_of_nodup]
    · intro x
      simp only [List.mem_filter, List.mem_range, List.contains_iff_mem]
      exact ⟨fun h => h.2, fun h => ⟨h2 x h, h⟩⟩
    · exact List.nodup_range.filter _
    · exact h1.imp fun h => Nat.ne_of_lt h
  exact hp.eq_of_pairwise (le := (· < ·)) (fun a b _ _ h1 h2 => absurd h1 (by omega)) (List.Pairwise.filter _ List.pairwise_lt_range) h1

theorem xorAll_select (l : List Nat) (p : Nat → Bool) (f : Nat → Blk) :
    xorAll (l.map fun j => andBlk (f j) (if p j then 1 else 0)) = lowBits (xorAll ((l.filter p).map f)) := by
  induction l with
  | nil => rfl
  | cons j l ih =>
    have e : xorAll ((j :: l).map fun j => andBlk (f j) (if p j then 1 else 0)) =
        mmXor (andBlk (f j) (if p j then 1 else 0)) (xorAll (l.map fun j => andBlk (f j) (if p j then 1 else 0))) := rfl
    rw [e, ih]
    by_cases hp : p j = true
    · rw [List.filter_cons_of_pos hp, if_pos hp]
      have e2 : xorAll ((j :: l.filter p).map f) = mmXor (f j) (xorAll ((l.filter p).map f)) := rfl
      rw [e2, lowBits_xor]
      congr 1
      simp only [andBlk, lowBits, Nat.and_one_is_mod]
    · rw [List.filter_cons_of_neg (by simpa using hp), if_neg hp]
      have : andBlk (f j) 0 = (0, 0) := by simp [andBlk]
      rw [this, zero_mmXor]

/-- **C122, the reference encoder (partial).**  For every matrix and message, the dense reference encoder gives the lowest bit of each of the two words of
the sparse encoder's syndrome. -/
theorem dense_encode_low_bits_partial (msg : List Blk) (n : Nat) (hn : msg.length = n) (rows : List (List Nat))
    (h : ∀ r ∈ rows, r.Pairwise (· < ·) ∧ ∀ c ∈ r, c < n) :
    ∃ syn, ldpcEncode msg (toCsr rows).1 (toCsr rows).2 0 rows.length = some syn ∧ denseEncode msg (denseRows n rows) = syn.map fun b => (b.1 % 2, b.2 % 2) := by
  have hptr : rows.length < (toCsr rows).2.length := by
    have : ∀ (rows : List (List Nat)) s, (csrPtr s rows).length = rows.length + 1 := by
      intro rows
      induction rows with
      | nil => intro s; rfl
      | cons r rs ih => intro s; simp [csrPtr, ih]
    simp [toCsr, this]
  have hcols : ∀ c ∈ (toCsr rows).1, c < msg.length := by
    intro c hc
    obtain ⟨r, hr, hcr⟩ := List.mem_flatten.1 hc
    rw [hn]
    exact (h r hr).2 c hcr
  obtain ⟨syn, h1, h2, h3⟩ := ldpc_encode_rows msg (toCsr rows).1 (toCsr rows).2 rows.length hptr hcols
  refine ⟨syn, h1, ?_⟩
  apply List.ext_getElem
  · simp [denseEncode, denseRows, h2]
  · intro i hi1 hi2
    have hi : i < rows.length := by simpa [denseEncode, denseRows] using hi1
    have hs := h3 i hi
    have hcsr := csr_rows rows i hi
    rw [csrRow_spec _ _ i (by omega), List.getElem?_eq_getElem hi] at hcsr
    rw [Option.some.inj hcsr] at hs
    have hsyn : i < syn.length := by omega
    rw [List.getElem?_eq_getElem hsyn] at hs
    have hs := Option.some.inj hs
    rw [List.getElem_map, hs]
    simp only [denseEncode, denseRows, List.getElem_map]
    rw [foldl_xor, zero_mmXor]
    have hz : (((List.range n).map fun j => if (rows[i]).contains j then 1 else 0).zip msg).map (fun e => andBlk e.2 e.1) =
        (List.range n).map fun j => andBlk (msg.getD j (0, 0)) (if (rows[i]).contains j then 1 else 0) := by
      apply List.ext_getElem
      · simp [hn]
      · intro k hk1 hk2
        have hk : k < msg.length := by simp at hk2; omega
        simp only [List.getElem_map, List.getElem_zip, List.getElem_range]
        rw [List.getD_eq_getElem?_getD, List.getElem?_eq_getElem hk]
        rfl
    rw [hz, xorAll_select (List.range n) (fun j => (rows[i]).contains j) (fun j => msg.getD j (0, 0)),
      sorted_filter n _ (h _ (List.getElem_mem hi)).1 (h _ (List.getElem_mem hi)).2]
    rfl

/-- A two-row matrix and messages with several bits set. -/
example : (∀ r ∈ ([[0, 2], [1, 2]] : List (List Nat)), r.Pairwise (· < ·) ∧ ∀ c ∈ r, c < 3) ∧
    ldpcEncode [(7, 2), (4, 9), (2, 1)] (toCsr [[0, 2], [1, 2]]).1 (toCsr [[0, 2], [1, 2]]).2 0 2 = some [(5, 3), (6, 8)] ∧
    denseEncode [(7, 2), (4, 9), (2, 1)] (denseRows 3 [[0, 2], [1, 2]]) = [(1, 1), (0, 0)] := by decide

/-- **C122, the reference encoder (violated).**  It is not the sparse encoder: already for one column and the message 2 it gives 0. -/
theorem dense_encode_violated : ∃ (msg : List Blk) (rows : List (List Nat)) (syn : List Blk),
    ldpcEncode msg (toCsr rows).1 (toCsr rows).2 0 rows.length = some syn ∧ denseEncode msg (denseRows msg.length rows) ≠ syn :=
  ⟨[(2, 0)], [[0]], [(2, 0)], by decide, by decide⟩

/-! ## The decoder -/

/-- the syndrome of the error with a single one at position `j` -/
def unitSyndrome (rows : List (List Nat)) (j : Nat) : List Nat := colOf rows j

theorem reduction_self (rows : List (List Nat)) (i j : Nat) :
    reduction (colOf rows i) (colOf rows j) = (rows.filter fun r => r.contains i && r.contains j).length := by
  unfold reduction colOf
  induction rows with
  | nil => rfl
  | cons r rs ih =>
    simp only [List.map_cons, List.zip_cons_cons, List.sum_cons, ih]
    by_cases hi : r.contains i = true <;> by_cases hj : r.contains j = true <;> simp_all <;> omega

theorem filter_length_mono {α : Type} (l : List α) (p q : α → Bool) (h : ∀ a ∈ l, p a = true → q a = true) : (l.filter p).length ≤ (l.filter q).length := by
  induction l with
  | nil => simp
  | cons a l ih =>
    have := ih fun b hb => h b (by simp [hb])
    by_cases hp : p a = true
    · rw [List.filter_cons_of_pos hp, List.filter_cons_of_pos (h a (by simp) hp)]; simp; exact this
    · rw [List.filter_cons_of_neg hp]
      by_cases hq : q a = true
      · rw [List.filter_cons_of_pos hq]; simp; omega
      · rw [List.filter_cons_of_neg hq]; exact this

theorem filter_length_lt {α : Type} (l : List α) (p q : α → Bool) (h : ∀ a ∈ l, p a = true → q a = true) (hx : ∃ a ∈ l, q a = true ∧ p a = false) :
    (l.filter p).length < (l.filter q).length := by
  induction l with
  | nil => obtain ⟨a, ha, _⟩ := hx; cases ha
  | cons a l ih =>
    by_cases hp : p a = true
    · rw [List.filter_cons_of_pos hp, List.filter_cons_of_pos (h a (by simp) hp)]
      have : ∃ a ∈ l, q a = true ∧ p a = false := by
        obtain ⟨b, hb, h1, h2⟩ := hx
        rcases List.mem_cons.1 hb with rfl | hb
        · rw [hp] at h2; cases h2
        · exact ⟨b, hb, h1, h2⟩
      have := ih (fun b hb => h b (by simp [hb])) this
      simp; exact this
    · rw [List.filter_cons_of_neg hp]
      by_cases hq : q a = true
      · rw [List.filter_cons_of_pos hq]
        have := filter_length_mono l p q fun b hb => h b (by simp [hb])
        simp; omega
      · rw [List.filter_cons_of_neg hq]
        apply ih fun b hb => h b (by simp [hb])
        obtain ⟨b, hb, h1, h2⟩ := hx
        rcases List.mem_cons.1 hb with rfl | hb
        · exact absurd h1 hq
        · exact ⟨b, hb, h1, h2⟩

/-- the search finds the first maximum -/
theorem bestCol_first (rows : List (List Nat)) (rem : List Nat) (j M : Nat) (hM : reduction (colOf rows j) rem = M) :
    ∀ (l1 l2 : List Nat) (b : Option Nat × Nat), b.2 < M → (∀ i ∈ l1, reduction (colOf rows i) rem < M) →
      (∀ i ∈ l2, reduction (colOf rows i) rem ≤ M) → bestCol rows rem (l1 ++ j :: l2) b = (some j, M)
  | [], l2, b, hb, _, h2 => by
    have stay : ∀ (l : List Nat), (∀ i ∈ l, reduction (colOf rows i) rem ≤ M) → bestCol rows rem l (some j, M) = (some j, M) := by
      intro l
      induction l with
      | nil => intro _; rfl
      | cons i l ih =>
        intro h
        have := h i (by simp)
        rw [bestCol, if_neg (by show ¬ M < _; omega)]
        exact ih fun x hx => h x (by simp [hx])
    rw [List.nil_append, bestCol, if_pos (by rw [hM]; exact hb), hM]
    exact stay l2 h2
  | i :: l1, l2, b, hb, h1, h2 => by
    rw [List.cons_append, bestCol]
    refine bestCol_first rows rem j M hM l1 l2 _ ?_ (fun x hx => h1 x (by simp [hx])) h2
    split
    · exact h1 i (by simp)
    · exact hb

theorem zero_reduction (col rem : List Nat) (h : ∀ x ∈ rem, x = 0) : reduction col rem = 0 := by
  unfold reduction
  induction col generalizing rem with
  | nil => rfl
  | cons c cs ih =>
    cases rem with
    | nil => rfl
    | cons x xs =>
      simp only [List.zip_cons_cons, List.map_cons, List.sum_cons]
      rw [if_pos (h x (by simp)), ih xs fun y hy => h y (by simp [hy])]

theorem bestCol_zero (rows : List (List Nat)) (rem : List Nat) (h : ∀ x ∈ rem, x = 0) : ∀ l : List Nat, bestCol rows rem l (none, 0) = (none, 0)
  | [] => rfl
  | i :: l => by
    rw [bestCol, zero_reduction _ _ h, if_neg (by simp)]
    exact bestCol_zero rows rem h l

/-- **C122, decoding a single error (partial).**  For every matrix, an error with a single one is decoded from its syndrome, whatever weight is
asked for, if its column is not zero and is not contained in an earlier column. -/
theorem decode_single_partial (rows : List (List Nat)) (n j w : Nat) (hj : j < n) (hw : 0 < w) (h0 : ∃ r ∈ rows, j ∈ r)
    (hsup : ∀ i < j, ∃ r ∈ rows, j ∈ r ∧ i ∉ r) : decodeBits rows n (unitSyndrome rows j) w = (List.replicate n 0).set j 1 := by
  obtain ⟨w, rfl⟩ : ∃ v, w = v + 1 := ⟨w - 1, by omega⟩
  unfold decodeBits unitSyndrome
  rw [decodeLoop]
  have hM : reduction (colOf rows j) (colOf rows j) = (rows.filter fun r => r.contains j).length := by
    rw [reduction_self]
    congr 1
    apply List.filter_congr
    intro r _
    simp
  have hpos : 0 < (rows.filter fun r => r.contains j).length := by
    obtain ⟨r, hr, hjr⟩ := h0
    exact List.length_pos_of_mem (List.mem_filter.2 ⟨hr, by simpa using hjr⟩)
  have hsplit : List.range n = List.range j ++ j :: (List.range (n - j - 1)).map (j + 1 + ·) := by
    have : n = j + (1 + (n - j - 1)) := by omega
    conv_lhs => rw [this, List.range_add, List.range_add]
    simp
  have hb := bestCol_first rows (colOf rows j) j _ hM (List.range j) ((List.range (n - j - 1)).map (j + 1 + ·)) (none, 0) hpos
    (fun i hi => by
      rw [reduction_self]
      apply filter_length_lt
      · intro r _ h; simp only [Bool.and_eq_true] at h; exact h.2
      · obtain ⟨r, hr, h1, h2⟩ := hsup i (List.mem_range.1 hi)
        exact ⟨r, hr, by simpa using h1, by simp [h2]⟩)
    (fun i _ => by
      rw [reduction_self]
      exact filter_length_mono _ _ _ fun r _ h => by simp only [Bool.and_eq_true] at h; exact h.2)
  rw [hsplit, hb]
  simp only
  have hz : ∀ x ∈ List.zipWith (fun a b => (a + b) % 2) (colOf rows j) (colOf rows j), x = 0 := by
    intro x hx
    rw [List.zipWith_self] at hx
    obtain ⟨a, _, rfl⟩ := List.mem_map.1 hx
    omega
  cases w with
  | zero => rfl
  | succ w =>
    rw [decodeLoop, bestCol_zero rows _ hz]

example : decodeBits [[0, 1], [1, 2], [2, 3]] 4 (unitSyndrome [[0, 1], [1, 2], [2, 3]] 2) 5 = [0, 0, 1, 0] ∧
    (∃ r ∈ [[0, 1], [1, 2], [2, 3]], 2 ∈ r) ∧ ∀ i < 2, ∃ r ∈ [[0, 1], [1, 2], [2, 3]], 2 ∈ r ∧ i ∉ r := by decide

/-- a bit as a block that is set in both words -/
def bothWords (b : Nat) : Blk := (b, b)

theorem reductionB_both (col rem : List Nat) : reductionB col (rem.map bothWords) = 2 * reduction col rem := by
  induction col generalizing rem with
  | nil => rfl
  | cons c col ih =>
    cases rem with
    | nil => rfl
    | cons r rem =>
      have := ih rem
      simp only [reductionB, reduction, List.map_cons, List.zip_cons_cons, List.sum_cons, bothWords] at this ⊢
      split <;> omega

theorem bestColB_both (rows : List (List Nat)) (rem : List Nat) : ∀ (l : List Nat) (o : Option Nat) (m : Nat),
    (bestColB rows (rem.map bothWords) l (o, 2 * m)).1 = (bestCol rows rem l (o, m)).1
  | [], _, _ => rfl
  | j :: l, o, m => by
    simp only [bestColB, bestCol, reductionB_both]
    by_cases h : m < reduction (colOf rows j) rem
    · rw [if_pos h, if_pos (by omega)]
      exact bestColB_both rows rem l _ _
    · rw [if_neg h, if_neg (by omega)]
      exact bestColB_both rows rem l _ _

theorem decodeLoopB_both (rows : List (List Nat)) (n : Nat) : ∀ (w : Nat) (err rem : List Nat), (∀ b ∈ rem, b < 2) →
    decodeLoopB rows n w (err.map bothWords) (rem.map bothWords) = (decodeLoop rows n w err rem).map bothWords
  | 0, _, _, _ => rfl
  | w + 1, err, rem, h => by
    rw [decodeLoopB, decodeLoop]
    have hb := bestColB_both rows rem (List.range n) none 0
    rw [show 2 * 0 = 0 from rfl] at hb
    rw [hb]
    cases (bestCol rows rem (List.range n) (none, 0)).1 with
    | none => rfl
    | some j =>
      simp only
      have hstep : List.zipWith (fun (a : Blk) b => if b = 0 then a else mmXor a (1, 1)) (rem.map bothWords) (colOf rows j) =
          (List.zipWith (fun a b => (a + b) % 2) rem (colOf rows j)).map bothWords := by
        have hc : ∀ b ∈ colOf rows j, b < 2 := by
          intro b hb
          obtain ⟨r, _, rfl⟩ := List.mem_map.1 hb
          split <;> omega
        revert h hc
        generalize colOf rows j = col
        clear hb
        induction rem generalizing col with
        | nil => intros; rfl
        | cons a rem ih =>
          intro h hc
          cases col with
          | nil => rfl
          | cons b col =>
            have ha : a < 2 := h a (.head _)
            have hb : b < 2 := hc b (.head _)
            simp only [List.map_cons, List.zipWith_cons_cons]
            rw [ih col (fun x hx => h x (.tail _ hx)) fun x hx => hc x (.tail _ hx)]
            congr 1
            have : a = 0 ∨ a = 1 := by omega
            have : b = 0 ∨ b = 1 := by omega
            rcases ‹a = 0 ∨ a = 1› with rfl | rfl <;> rcases ‹b = 0 ∨ b = 1› with rfl | rfl <;> decide
      rw [hstep, show ((1, 1) : Blk) = bothWords 1 from rfl, ← List.map_set]
      apply decodeLoopB_both rows n w
      intro b hb
      obtain ⟨i, hi, rfl⟩ := List.mem_iff_getElem.1 hb
      simp only [List.getElem_zipWith]
      omega

/-- **C122, decoding blocks.**  A syndrome whose blocks are bits, the same in both words, is decoded like the vector of these bits. -/
theorem decode_blocks_bits (rows : List (List Nat)) (n w : Nat) (syn : List Nat) (h : ∀ b ∈ syn, b < 2) :
    decodeBlocks rows n (syn.map fun b => (b, b)) w = (decodeBits rows n syn w).map fun b => (b, b) := by
  have := decodeLoopB_both rows n w (List.replicate n 0) syn h
  rw [List.map_replicate] at this
  exact this

example : decodeBlocks [[0, 1], [1, 2]] 3 [(1, 1), (1, 1)] 1 = [(0, 0), (1, 1), (0, 0)] := by
  have := decode_blocks_bits [[0, 1], [1, 2]] 3 1 [1, 1] (by decide)
  rw [show decodeBits [[0, 1], [1, 2]] 3 [1, 1] 1 = [0, 1, 0] by decide] at this
  exact this

/-- **C122, decoding (violated).**  (1) A single error whose column is contained in an earlier one is decoded to that one; (2) two errors can be decoded
to something with another syndrome although the right answer has the asked weight; (3) for blocks the error's value is lost: it is always set to ones. -/
theorem decode_violated :
    (∃ rows, decodeBits rows 2 (unitSyndrome rows 1) 1 = [1, 0] ∧ unitSyndrome rows 0 ≠ unitSyndrome rows 1) ∧
    (∃ rows syn, syn = List.zipWith (fun a b => (a + b) % 2) (unitSyndrome rows 1) (unitSyndrome rows 2) ∧ decodeBits rows 3 syn 2 = [1, 0, 1] ∧
      List.zipWith (fun a b => (a + b) % 2) (unitSyndrome rows 0) (unitSyndrome rows 2) ≠ syn) ∧
    ∃ (rows : List (List Nat)) (msg syn : List Blk), ldpcEncode msg (toCsr rows).1 (toCsr rows).2 0 rows.length = some syn ∧
      msg = [(2, 0)] ∧ decodeBlocks rows 1 syn 1 = [(1, 1)] := by
  refine ⟨⟨[[0, 1], [0]], by decide, by decide⟩, ⟨[[0, 1], [0, 2], [0, 1], [0, 2], [2]], _, rfl, ?_, ?_⟩, ⟨[[0]], [(2, 0)], [(2, 0)], by decide, rfl, by decide⟩⟩
  · decide
  · decide

/-! ## The structure check -/

theorem sum_le (l : List Nat) (c : Nat) (h : ∀ x ∈ l, x ≤ c) : l.sum ≤ c * l.length := by
  induction l with
  | nil => simp
  | cons a l ih =>
    have h1 := h a (by simp)
    have h2 := ih fun x hx => h x (by simp [hx])
    simp only [List.sum_cons, List.length_cons, Nat.mul_succ]
    omega

theorem le_sum (l : List Nat) (c : Nat) (h : ∀ x ∈ l, c ≤ x) : c * l.length ≤ l.sum := by
  induction l with
  | nil => simp
  | cons a l ih =>
    have h1 := h a (by simp)
    have h2 := ih fun x hx => h x (by simp [hx])
    simp only [List.sum_cons, List.length_cons, Nat.mul_succ]
    omega

/-- **C122, what the structure check accepts.**  Exactly the non-empty matrices with at most a tenth of the entries set, no empty
row and on average between 2 and 20 entries in a row. -/
theorem structure_check_exact (rows : List (List Nat)) (n : Nat) :
    verifyStructure rows n = some true ↔ rows ≠ [] ∧ n ≠ 0 ∧ 10 * (rows.map List.length).sum ≤ rows.length * n ∧ (∀ r ∈ rows, r ≠ []) ∧
      2 * rows.length ≤ (rows.map List.length).sum ∧ (rows.map List.length).sum ≤ 20 * rows.length := by
  unfold verifyStructure
  by_cases h1 : rows.length * n = 0
  · rw [if_pos h1]
    constructor
    · intro h; cases h
    · rintro ⟨h2, h3, -⟩
      rcases Nat.mul_eq_zero.1 h1 with h | h
      · exact absurd (List.length_eq_zero_iff.1 h) h2
      · exact absurd h h3
  · rw [if_neg h1]
    have hr : rows ≠ [] := by rintro rfl; simp at h1
    have hn : n ≠ 0 := by rintro rfl; simp at h1
    by_cases h2 : rows.length * n < 10 * (rows.map List.length).sum
    · rw [if_pos h2]
      constructor
      · intro h; cases h
      · rintro ⟨-, -, h3, -⟩; omega
    · rw [if_neg h2]
      by_cases h3 : (rows.map List.length).any (· = 0) = true
      · rw [if_pos h3]
        constructor
        · intro h; cases h
        · rintro ⟨-, -, -, h4, -⟩
          rw [List.any_eq_true] at h3
          obtain ⟨x, hx, h0⟩ := h3
          obtain ⟨r, hm, rfl⟩ := List.mem_map.1 hx
          simp only [decide_eq_true_eq] at h0
          exact absurd (List.length_eq_zero_iff.1 h0) (h4 r hm)
      · rw [if_neg h3]
        simp only [Option.some.injEq, Bool.not_eq_true', Bool.or_eq_false_iff, decide_eq_false_iff_not]
        constructor
        · rintro ⟨h4, h5⟩
          refine ⟨hr, hn, by omega, fun r hm h0 => h3 ?_, by omega, by omega⟩
          rw [List.any_eq_true]
          exact ⟨0, List.mem_map.2 ⟨r, hm, by rw [h0]; rfl⟩, rfl⟩
        · rintro ⟨-, -, -, -, h5, h6⟩; omega

example : verifyStructure [[0, 3], [1, 2]] 20 = some true ∧ verifyStructure [[0, 3], [1, 2]] 19 = some false ∧
    verifyStructure [[0, 1, 2], []] 40 = some false ∧ verifyStructure [[1]] 40 = some false := by decide

/-- **C122, the structure check (partial).**  Every generated matrix with at least 50 columns passes the check, for all random draws. -/
theorem generated_passes_partial (n : Nat) (bases : List Nat) (ds : List RowDraw) (rows : List (List Nat)) (h : silverRows n bases ds = some rows)
    (hd : ds ≠ []) (hn : 50 ≤ n) : verifyStructure rows n = some true := by
  obtain ⟨h1, h2⟩ := silver_rows_good n bases ds rows h
  have hpos : 0 < rows.length := by rw [h1]; exact List.length_pos_of_ne_nil hd
  have hlo := le_sum (rows.map List.length) 3 fun x hx => by
    obtain ⟨r, hr, rfl⟩ := List.mem_map.1 hx
    have := (h2 r hr).2.2.1
    omega
  have hhi := sum_le (rows.map List.length) 5 fun x hx => by
    obtain ⟨r, hr, rfl⟩ := List.mem_map.1 hx
    have := (h2 r hr).2.2.2
    omega
  rw [List.length_map] at hlo hhi
  have hmul : rows.length * 50 ≤ rows.length * n := Nat.mul_le_mul_left _ hn
  unfold verifyStructure
  rw [if_neg (by have : 0 < rows.length * n := Nat.mul_pos hpos (by omega); omega), if_neg (by omega), if_neg]
  · simp only [Option.some.injEq, Bool.not_eq_true', Bool.or_eq_false_iff, decide_eq_false_iff_not]
    omega
  · rw [List.any_eq_true]
    rintro ⟨x, hx, h0⟩
    obtain ⟨r, hr, rfl⟩ := List.mem_map.1 hx
    have := (h2 r hr).2.2.1
    simp only [decide_eq_true_eq] at h0
    omega

/-- One row of 60 columns, drawn without offsets. -/
example : silverRows 60 [0, 14, 29, 44, 59] [⟨[0, 0, 0, 0, 0], []⟩] = some [[0, 14, 29, 44, 59]] ∧ verifyStructure [[0, 14, 29, 44, 59]] 60 = some true := by decide +kernel

/-- **C122, the structure check (violated).**  Every generated matrix with fewer than 30 columns fails it. -/
theorem small_generated_violated (n : Nat) (bases : List Nat) (ds : List RowDraw) (rows : List (List Nat)) (h : silverRows n bases ds = some rows)
    (hd : ds ≠ []) (h0 : 0 < n) (hn : n < 30) : verifyStructure rows n = some false := by
  obtain ⟨h1, h2⟩ := silver_rows_good n bases ds rows h
  have hpos : 0 < rows.length := by rw [h1]; exact List.length_pos_of_ne_nil hd
  have hlo := le_sum (rows.map List.length) (min 3 n) fun x hx => by
    obtain ⟨r, hr, rfl⟩ := List.mem_map.1 hx
    have := (h2 r hr).2.2.1
    omega
  rw [List.length_map] at hlo
  have hlt : rows.length * n < 10 * (rows.map List.length).sum := by
    have e : min 3 n * rows.length * 10 ≤ 10 * (rows.map List.length).sum := by omega
    refine Nat.lt_of_lt_of_le ?_ e
    rw [Nat.mul_comm (min 3 n), Nat.mul_assoc]
    exact Nat.mul_lt_mul_of_pos_left (by omega) hpos
  unfold verifyStructure
  rw [if_neg (by have : 0 < rows.length * n := Nat.mul_pos hpos h0; omega), if_pos hlt]

example : silverRows 12 [0, 2, 5, 8, 11] [⟨[0, 0, 0, 0, 0], []⟩] = some [[0, 2, 5, 8, 11]] := by decide +kernel

/-! ## The parameters -/

/-- **C122** (parameters)  The code has one column per correlation; `silver_vole` draws on between 128 and 2048 base correlations: at most a
tenth of the number of outputs from 1280 outputs on, and at least a tenth (rounded down) up to 20480. -/
theorem silver_base_bounds (n : Nat) :
    (silverParams n).1 = n ∧ silverBaseK n = min (silverParams n).2.1 2048 ∧ 128 ≤ silverBaseK n ∧ silverBaseK n ≤ 2048 ∧
      (1280 ≤ n → 10 * silverBaseK n ≤ n) ∧ (n ≤ 20480 → n < 10 * silverBaseK n + 10) := by
  unfold silverParams silverBaseK
  simp only
  refine ⟨trivial, trivial, ?_, ?_, ?_, ?_⟩ <;> omega

example : silverBaseK 1000 = 128 ∧ silverBaseK 20000 = 2000 ∧ silverBaseK 1000000 = 2048 := by decide

end Verif.Mpc
