import Verif.Mpc.Iknp
/-!
# The part of a seed the expansion uses

Seeds have 32 bytes; `prg_expand` keys AES with the first 16 of them (extension.py:47-51, 31-69).
-/
namespace Verif.Mpc

theorem digits_inj : ∀ (l l' : List Nat), l.length = l'.length → (∀ x ∈ l, x < 256) → (∀ x ∈ l', x < 256) →
    l.foldr (fun x acc => x + 256 * acc) 0 = l'.foldr (fun x acc => x + 256 * acc) 0 → l = l'
  | [], [], _, _, _, _ => rfl
  | [], _ :: _, h, _, _, _ => by simp at h
  | _ :: _, [], h, _, _, _ => by simp at h
  | x :: l, y :: l', h, hx, hy, e => by
    simp only [List.foldr_cons] at e
    have h1 := hx x (by simp)
    have h2 := hy y (by simp)
    have h3 : x = y := by omega
    have h4 := digits_inj l l' (by simpa using h) (fun z hz => hx z (by simp [hz])) (fun z hz => hy z (by simp [hz])) (by omega)
    rw [h3, h4]

theorem leWord_eq_iff {s s' : Bytes32} (hs : ∀ i, s i < 256) (hs' : ∀ i, s' i < 256) (o : Nat) (h : o + 8 ≤ 32) :
    leWord s o h = leWord s' o h ↔ ∀ i : Fin 8, s ⟨o + i.val, by omega⟩ = s' ⟨o + i.val, by omega⟩ := by
  have hm : ∀ t : Bytes32, leWord t o h = ((List.finRange 8).map fun i : Fin 8 => t ⟨o + i.val, by omega⟩).foldr (fun x acc => x + 256 * acc) 0 := by
    intro t
    unfold leWord
    rw [List.foldr_map]
  rw [hm, hm]
  constructor
  · intro e i
    have := digits_inj _ _ (by simp) (by simp only [List.mem_map]; rintro x ⟨i, _, rfl⟩; exact hs _)
      (by simp only [List.mem_map]; rintro x ⟨i, _, rfl⟩; exact hs' _) e
    exact (List.map_inj_left.1 this) i (List.mem_finRange i)
  · intro e
    rw [List.map_congr_left fun i _ => e i]

/-- **C45 (seeds).**  The key made of a seed determines, and is determined by, its first 16 bytes. -/
theorem seed_block_iff {s s' : Bytes32} (hs : ∀ i, s i < 256) (hs' : ∀ i, s' i < 256) :
    seedBlk s = seedBlk s' ↔ ∀ i : Fin 32, i.val < 16 → s i = s' i := by
  unfold seedBlk
  rw [Prod.mk.injEq, leWord_eq_iff hs hs', leWord_eq_iff hs hs']
  constructor
  · rintro ⟨h1, h2⟩ ⟨i, hi⟩ h
    simp only at h
    by_cases h8 : i < 8
    · have := h1 ⟨i, h8⟩
      simpa using this
    · have := h2 ⟨i - 8, by omega⟩
      have e : 8 + (i - 8) = i := by omega
      simpa [e] using this
  · intro h
    exact ⟨fun i => h _ (by simp only; omega), fun i => h _ (by simp only; omega)⟩

/-- **C45 (seeds).**  Seeds of 32 bytes that agree in the first 16 expand to the same bits: the second half of a seed is never used. -/
theorem prg_uses_half {A : Type} (E : IknpEnv A) {s s' : Bytes32} (hs : ∀ i, s i < 256) (hs' : ∀ i, s' i < 256)
    (h : ∀ i : Fin 32, i.val < 16 → s i = s' i) (length j : Nat) : prgBit E s length j = prgBit E s' length j := by
  unfold prgBit
  rw [(seed_block_iff hs hs').2 h]

/-- **C45 (expansion).**  For a row of `length` bits only the blocks of the cipher that were asked for are read, and no more blocks than
necessary are asked for. -/
theorem prg_blocks {A : Type} (E E' : IknpEnv A) (seed : Bytes32) {length j : Nat} (hj : j < length)
    (h : ∀ k count i, i < count → 128 * count < length + 128 → E.aes k count i = E'.aes k count i) :
    prgBit E seed length j = prgBit E' seed length j := by
  unfold prgBit
  rw [h _ _ _ (by omega) (by omega)]

/-- The bytes of a row that are hashed: one byte per bit, the bit itself. -/
theorem rowBytes_get (row : Fin iknpK → Bool) (i : Fin iknpK) : (rowBytes row)[i.val]? = some (row i).toNat := by
  have hi := i.isLt
  unfold rowBytes
  rw [List.getElem?_map, List.getElem?_eq_getElem (by simpa using hi)]
  cases h : row i <;> simp [h]

/-- Little-endian words of the first and the second eight bytes. -/
example : seedBlk (fun i => i.val) = (0x0706050403020100, 0x0f0e0d0c0b0a0908) := by decide

example : ∀ i : Fin 32, i.val < 16 → (fun i : Fin 32 => i.val) i = (fun i : Fin 32 => if i.val < 16 then i.val else 7) i := by decide

end Verif.Mpc
