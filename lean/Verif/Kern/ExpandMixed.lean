import Verif.Kern.Expand
/-! # C80 — seed expansion with and without the native library
A worker whose native library cannot be loaded falls back to NumPy's generator
(`_get_lib`, /repo/mplang/backends/field_impl.py:51-105); the parties do not compare notes. -/
namespace Verif.Kern

/-- `_aes_expand_impl_prim` on a worker: `native` says whether `_get_lib` found the library; `stores`
is the order in which its threads write.
/repo/mplang/backends/field_impl.py:347-374 -/
def expandOn (enc : Blk → Blk) (rng : Blk → Nat → List Blk) (native : Bool) (seeds : List Blk)
    (length : Nat) (stores : List (Nat × Nat)) : List Blk :=
  if native then expandNative enc seeds length stores else expandFallback rng seeds length

/-- **Specification** the contract of AES-128 on 128-bit blocks: every block is the encryption of one -/
def Onto (enc : Blk → Blk) : Prop :=
  ∀ b : Blk, b.1 < 2 ^ 64 → b.2 < 2 ^ 64 → ∃ s : Blk, s.1 < 2 ^ 64 ∧ s.2 < 2 ^ 64 ∧ enc s = b

/-- **Specification** the contract of `rng.integers(0, 0xFFFFFFFFFFFFFFFF, size=(length, 2))`: that many
words, the upper bound not among them -/
def Draws (rng : Blk → Nat → List Blk) : Prop :=
  ∀ s l, (rng s l).length = l ∧ ∀ b ∈ rng s l, b.1 < 2 ^ 64 - 1 ∧ b.2 < 2 ^ 64 - 1

/-- **C80 (two workers)**: workers of the same kind expand a seed to the same blocks, whatever else
they were given and however their threads ran. -/
theorem expand_same_workers {enc : Blk → Blk} {rng : Blk → Nat → List Blk} (hr : Draws rng) (native : Bool)
    {seeds seeds' : List Blk} {length : Nat} {stores stores' : List (Nat × Nat)}
    (hs : stores.Perm (allStores seeds.length length)) (hs' : stores'.Perm (allStores seeds'.length length))
    {i i' j : Nat} {s : Blk} (hi : seeds[i]? = some s) (hi' : seeds'[i']? = some s) (hj : j < length) :
    blockAt (expandOn enc rng native seeds length stores) length i j
      = blockAt (expandOn enc rng native seeds' length stores') length i' j := by
  cases native with
  | true => exact expand_native_stable enc seeds seeds' length length stores stores' hs hs' i i' j s hi hi' hj hj
  | false =>
    have h := fun ss => (expand_fallback_blocks rng length (fun s => (hr s length).1) ss).2
    exact (h seeds i j s hi hj).trans (h seeds' i' j s hi' hj).symm

/-- **C80 is violated between workers**: one worker with the native library and one without expand some
seed to different blocks, whatever the cipher and the generator: what was meant to be shared
randomness differs, and nothing reports it. -/
theorem expand_mixed_violated {enc : Blk → Blk} {rng : Blk → Nat → List Blk} (he : Onto enc) (hr : Draws rng) :
    ∃ s : Blk, s.1 < 2 ^ 64 ∧ s.2 < 2 ^ 64 ∧ ∀ length stores stores', 0 < length → stores.Perm (allStores 1 length) →
      blockAt (expandOn enc rng true [s] length stores) length 0 0
        ≠ blockAt (expandOn enc rng false [s] length stores') length 0 0 := by
  obtain ⟨s, h1, h2, e⟩ := he (2 ^ 64 - 1, 2 ^ 64 - 1) (by decide) (by decide)
  refine ⟨s, h1, h2, fun length stores stores' hl hs h => ?_⟩
  have ha := (expand_native_blocks enc [s] length stores hs).2 0 0 s rfl hl
  have hb := (expand_fallback_blocks rng length (fun s => (hr s length).1) [s]).2 0 0 s rfl hl
  have h' : blockAt (expandNative enc [s] length stores) length 0 0 = blockAt (expandFallback rng [s] length) length 0 0 := h
  rw [ha, hb, Nat.xor_zero, show (s.1, s.2) = s from rfl, e] at h'
  have := ((hr s length).2 _ (List.mem_of_getElem? h'.symm)).1
  exact absurd this (by decide)

/-- **C80 is violated by the fallback**: it never draws the word `2^64 - 1`, which the cipher does reach:
its blocks are not uniform. -/
theorem expand_fallback_range_violated {rng : Blk → Nat → List Blk} (hr : Draws rng) (seeds : List Blk) (length : Nat) :
    ∀ b ∈ expandFallback rng seeds length, b.1 ≠ 2 ^ 64 - 1 ∧ b.2 ≠ 2 ^ 64 - 1 := by
  intro b hb
  obtain ⟨s, _, h⟩ := List.mem_flatMap.1 hb
  have := (hr s length).2 b h
  omega

/-- The contracts are met together: a cipher that swaps the words, a generator that repeats one. -/
example : Onto (fun b => (b.2, b.1)) ∧ Draws (fun s l => List.replicate l (s.1 % 2 ^ 63, 7)) := by
  refine ⟨fun b h1 h2 => ⟨(b.2, b.1), h2, h1, rfl⟩, fun s l => ⟨by simp, fun b hb => ?_⟩⟩
  obtain rfl := (List.mem_replicate.1 hb).2
  constructor
  · show s.1 % 2 ^ 63 < 2 ^ 64 - 1
    omega
  · show 7 < 2 ^ 64 - 1
    decide

end Verif.Kern
