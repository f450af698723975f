import Verif.Kern.OkvsSolve
/-! # C80 — seed expansion (`field.aes_expand`)
Model of `aes_128_expand`, /repo/mplang/kernels/okvs.cpp:246-282, and of its caller
`_aes_expand_impl_prim`, /repo/mplang/backends/field_impl.py:330-379.

`enc` is AES-128 under the kernel's fixed key, `rng` is the NumPy generator of the fallback
(`np.random.default_rng([s0, s1]).integers(.., size=(length, 2))`). -/
namespace Verif.Kern

/-- Block `j` of a seed: the seed xored with the counter in the low word, encrypted under the fixed
key. /repo/mplang/kernels/okvs.cpp:264-275 -/
def expandBlock (enc : Blk → Blk) (s : Blk) (j : Nat) : Blk := enc (mmXor s (j, 0))

/-- One store of the kernel: seed `i`, block `j`, flat position `i * length + j`.
/repo/mplang/kernels/okvs.cpp:277-279 -/
def storeBlock (enc : Blk → Blk) (seeds : List Blk) (length : Nat) (out : List Blk)
    (w : Nat × Nat) : List Blk :=
  out.set (w.1 * length + w.2) (expandBlock enc (seeds.getD w.1 (0, 0)) w.2)

/-- All stores of the two loops in program order. /repo/mplang/kernels/okvs.cpp:260-264 -/
def allStores (n length : Nat) : List (Nat × Nat) :=
  (List.range n).flatMap fun i => (List.range length).map fun j => (i, j)

/-- The parallel loop: the stores happen in some order. /repo/mplang/kernels/okvs.cpp:259-281 -/
def expandNative (enc : Blk → Blk) (seeds : List Blk) (length : Nat) (stores : List (Nat × Nat)) :
    List Blk :=
  stores.foldl (storeBlock enc seeds length) (List.replicate (seeds.length * length) (0, 0))

/-- The fallback: one generator per seed, its output copied into the row of the seed.
/repo/mplang/backends/field_impl.py:359-374 -/
def expandFallback (rng : Blk → Nat → List Blk) (seeds : List Blk) (length : Nat) : List Blk :=
  seeds.flatMap fun s => rng s length

/-- The flat result seen as an array of shape `(n, length, 2)`. -/
def blockAt (out : List Blk) (length i j : Nat) : Option Blk := out[i * length + j]?

theorem fold_length (enc : Blk → Blk) (seeds : List Blk) (length : Nat) :
    ∀ (ws : List (Nat × Nat)) (out : List Blk),
      (ws.foldl (storeBlock enc seeds length) out).length = out.length := by
  intro ws
  induction ws with
  | nil => intro out; rfl
  | cons w ws ih => intro out; rw [List.foldl_cons, ih]; simp [storeBlock]

theorem flat_inj {length i j i' j' : Nat} (hj : j < length) (hj' : j' < length)
    (h : i * length + j = i' * length + j') : i = i' ∧ j = j' := by
  have hl : 0 < length := by omega
  have h1 : (i * length + j) / length = i := by
    rw [Nat.mul_comm, Nat.mul_add_div hl, Nat.div_eq_of_lt hj]; rfl
  have h2 : (i' * length + j') / length = i' := by
    rw [Nat.mul_comm, Nat.mul_add_div hl, Nat.div_eq_of_lt hj']; rfl
  have : i = i' := by rw [← h1, ← h2, h]
  subst this
  exact ⟨rfl, by omega⟩

theorem flat_lt {n length i j : Nat} (hi : i < n) (hj : j < length) :
    i * length + j < n * length := by
  have : (i + 1) * length ≤ n * length := Nat.mul_le_mul_right _ hi
  rw [Nat.succ_mul] at this
  omega

theorem fold_stores (enc : Blk → Blk) (seeds : List Blk) (length n : Nat) (i j : Nat) (hi : i < n)
    (hj : j < length) :
    ∀ (ws : List (Nat × Nat)) (out : List Blk), out.length = n * length →
      (∀ w ∈ ws, w.2 < length) →
      (ws.foldl (storeBlock enc seeds length) out)[i * length + j]?
        = if (i, j) ∈ ws then some (expandBlock enc (seeds.getD i (0, 0)) j)
          else out[i * length + j]? := by
  intro ws
  induction ws with
  | nil => intro out _ _; simp
  | cons w ws ih =>
    intro out ho hw
    rw [List.foldl_cons, ih _ (by simp [storeBlock, ho]) (fun x hx => hw x (by simp [hx]))]
    by_cases hm : (i, j) ∈ ws
    · rw [if_pos hm, if_pos (by simp [hm])]
    · rw [if_neg hm]
      by_cases he : (i, j) = w
      · subst he
        rw [if_pos (by simp)]
        simp only [storeBlock]
        rw [List.getElem?_set_self (by rw [ho]; exact flat_lt hi hj)]
      · rw [if_neg (by simp [hm, he])]
        simp only [storeBlock]
        rw [List.getElem?_set_ne]
        intro e
        obtain ⟨e1, e2⟩ := flat_inj (hw w (by simp)) hj e
        exact he (Prod.ext e1.symm e2.symm)

/-- **C80**: with the native kernel, whatever the order of the stores of its threads, the result has
`length` blocks per seed, and block `j` of seed `i` is the encryption of that seed xored with `j`: it
depends on nothing but the seed and `j`. -/
theorem expand_native_blocks (enc : Blk → Blk) (seeds : List Blk) (length : Nat)
    (stores : List (Nat × Nat)) (hs : stores.Perm (allStores seeds.length length)) :
    (expandNative enc seeds length stores).length = seeds.length * length ∧
    ∀ i j s, seeds[i]? = some s → j < length →
      blockAt (expandNative enc seeds length stores) length i j
        = some (enc (s.1 ^^^ j, s.2)) := by
  have hmem : ∀ w, w ∈ stores ↔ w.1 < seeds.length ∧ w.2 < length := by
    intro w
    rw [hs.mem_iff, allStores, List.mem_flatMap]
    constructor
    · rintro ⟨i, hi, hw⟩
      rw [List.mem_map] at hw
      obtain ⟨j, hj, rfl⟩ := hw
      exact ⟨List.mem_range.1 hi, List.mem_range.1 hj⟩
    · rintro ⟨h1, h2⟩
      exact ⟨w.1, List.mem_range.2 h1, List.mem_map.2 ⟨w.2, List.mem_range.2 h2, rfl⟩⟩
  constructor
  · unfold expandNative; rw [fold_length]; simp
  · intro i j s hi hj
    have hil : i < seeds.length := (List.getElem?_eq_some_iff.1 hi).1
    unfold blockAt expandNative
    rw [fold_stores enc seeds length seeds.length i j hil hj _ _ (by simp)
      (fun w hw => ((hmem w).1 hw).2), if_pos ((hmem (i, j)).2 ⟨hil, hj⟩)]
    unfold expandBlock
    rw [List.getD_eq_getElem?_getD, hi]
    simp [mmXor]

/-- **C80**: a seed's blocks do not depend on the other seeds of the call, on its position among
them, on the schedule, or on how many blocks are asked for. -/
theorem expand_native_stable (enc : Blk → Blk) (seeds seeds' : List Blk) (length length' : Nat)
    (stores stores' : List (Nat × Nat)) (hs : stores.Perm (allStores seeds.length length))
    (hs' : stores'.Perm (allStores seeds'.length length')) (i i' j : Nat) (s : Blk)
    (hi : seeds[i]? = some s) (hi' : seeds'[i']? = some s) (hj : j < length) (hj' : j < length') :
    blockAt (expandNative enc seeds length stores) length i j
      = blockAt (expandNative enc seeds' length' stores') length' i' j := by
  rw [(expand_native_blocks enc seeds length stores hs).2 i j s hi hj,
    (expand_native_blocks enc seeds' length' stores' hs').2 i' j s hi' hj']

/-- **C80**: the blocks of one seed are pairwise different, because AES is a permutation. -/
theorem expand_native_distinct (enc : Blk → Blk) (hinj : Function.Injective enc) (seeds : List Blk)
    (length : Nat) (stores : List (Nat × Nat)) (hs : stores.Perm (allStores seeds.length length))
    (i j j' : Nat) (s : Blk) (hi : seeds[i]? = some s) (hj : j < length) (hj' : j' < length)
    (hne : j ≠ j') :
    blockAt (expandNative enc seeds length stores) length i j
      ≠ blockAt (expandNative enc seeds length stores) length i j' := by
  rw [(expand_native_blocks enc seeds length stores hs).2 i j s hi hj,
    (expand_native_blocks enc seeds length stores hs).2 i j' s hi hj']
  intro h
  have := hinj (Option.some.inj h)
  rw [Prod.mk.injEq] at this
  have h2 := congrArg (fun x => s.1 ^^^ x) this.1
  simp only [← Nat.xor_assoc, Nat.xor_self, Nat.zero_xor] at h2
  exact hne h2

/-- **C80 is violated by the native kernel**: two different seeds do not have independent
expansions. For every cipher, the seeds `(a, b)` and `(a ^ 1, b)` expanded to any even number of blocks
give the same blocks, pairwise swapped. -/
theorem expand_related_seeds_violated (enc : Blk → Blk) (a b : Nat) (length : Nat)
    (stores : List (Nat × Nat)) (hs : stores.Perm (allStores 2 length)) (j : Nat)
    (hj : j < length) (hj1 : j ^^^ 1 < length) :
    (a, b) ≠ (a ^^^ 1, b) ∧
    blockAt (expandNative enc [(a, b), (a ^^^ 1, b)] length stores) length 0 j
      = blockAt (expandNative enc [(a, b), (a ^^^ 1, b)] length stores) length 1 (j ^^^ 1) := by
  constructor
  · intro h
    have h1 : a = a ^^^ 1 := congrArg Prod.fst h
    have h2 := congrArg (fun x => a ^^^ x) h1
    simp only [← Nat.xor_assoc, Nat.xor_self, Nat.zero_xor] at h2
    omega
  · rw [(expand_native_blocks enc [(a, b), (a ^^^ 1, b)] length stores hs).2 0 j (a, b) rfl hj,
      (expand_native_blocks enc [(a, b), (a ^^^ 1, b)] length stores hs).2 1 (j ^^^ 1) (a ^^^ 1, b) rfl hj1]
    congr 3
    simp only
    rw [Nat.xor_comm j 1, ← Nat.xor_assoc, Nat.xor_assoc a 1 1, Nat.xor_self, Nat.xor_zero]

/-- **C80**: the fallback's blocks of a seed depend only on the seed and the requested length. -/
theorem expand_fallback_blocks (rng : Blk → Nat → List Blk) (length : Nat)
    (hr : ∀ s, (rng s length).length = length) (seeds : List Blk) :
    (expandFallback rng seeds length).length = seeds.length * length ∧
    ∀ i j s, seeds[i]? = some s → j < length →
      blockAt (expandFallback rng seeds length) length i j = (rng s length)[j]? := by
  induction seeds with
  | nil => exact ⟨by simp [expandFallback], by simp⟩
  | cons x seeds ih =>
    obtain ⟨h1, h2⟩ := ih
    have he : expandFallback rng (x :: seeds) length = rng x length ++ expandFallback rng seeds length := by
      simp [expandFallback]
    refine ⟨by rw [he, List.length_append, hr, h1, List.length_cons, Nat.succ_mul, Nat.add_comm], ?_⟩
    intro i j s hi hj
    rw [he]
    unfold blockAt at h2 ⊢
    match i with
    | 0 =>
      simp only [List.getElem?_cons_zero, Option.some.injEq] at hi
      subst hi
      rw [Nat.zero_mul, Nat.zero_add, List.getElem?_append_left (by rw [hr]; exact hj)]
    | i + 1 =>
      rw [List.getElem?_cons_succ] at hi
      rw [Nat.succ_mul, List.getElem?_append_right (by rw [hr]; omega), hr, ← h2 i j s hi hj]
      congr 1
      omega

/-- Two seeds, two blocks each, stores of the two seeds interleaved. -/
example : [(1, 0), (0, 0), (1, 1), (0, 1)].Perm (allStores [((3, 4) : Blk), (5, 6)].length 2) ∧
    blockAt (expandNative (fun x => (x.2, x.1)) [(3, 4), (5, 6)] 2 [(1, 0), (0, 0), (1, 1), (0, 1)]) 2 1 1
      = some (6, 4) := by
  refine ⟨by decide, by decide⟩

end Verif.Kern
