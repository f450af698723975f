import Verif.Serde.BinaryLemmas
/-!
# Property C03: binary container
-/
namespace Verif.Serde

/-- C03a. Packing metadata and segments and unpacking returns exactly the same metadata and segments. -/
theorem container_roundtrip (md : List Nat) (segs : List (List Nat)) (d : List Nat)
    (h : packContainer md segs = some d) : unpackContainer d = some (md, segs) := by
  simp only [packContainer] at h
  split at h
  · rename_i hh t h1 h2
    simp only [Option.some.injEq] at h; subst h
    obtain ⟨hl, hu⟩ := packU32_spec h1
    have : ¬ (md ++ t).length < md.length := by simp
    simp only [unpackContainer, List.append_assoc, hu, this, if_false, List.take_left, List.drop_left]
    rw [unpackSegsF_pack segs t h2 _ (Nat.le_refl _)]
  · cases h

/-- C03b. Packing succeeds exactly when all lengths fit in 32 bits. -/
theorem container_pack_succeeds_iff (md : List Nat) (segs : List (List Nat)) :
    (∃ d, packContainer md segs = some d) ↔ md.length < 2 ^ 32 ∧ ∀ s ∈ segs, s.length < 2 ^ 32 := by
  have hseg : ∀ segs : List (List Nat), (∃ d, packSegs segs = some d) ↔ ∀ s ∈ segs, s.length < 2 ^ 32 := by
    intro segs
    induction segs with
    | nil => simp [packSegs]
    | cons s r ih =>
      simp only [packSegs, packU32, List.mem_cons, forall_eq_or_imp, ← ih]
      by_cases hs : s.length < 2 ^ 32
      · simp only [hs, if_true]
        cases packSegs r <;> simp
      · simp [hs]
  rw [← hseg]
  simp only [packContainer, packU32]
  by_cases hm : md.length < 2 ^ 32
  · simp only [hm, if_true]
    cases packSegs segs <;> simp
  · simp [hm]

example : ∃ d, packContainer [1, 2, 3] [[4], [], [5, 6]] = some d ∧ d.length = 22 := ⟨_, rfl, rfl⟩

/-- C03c. Cutting a container anywhere is detected or yields the unchanged metadata with fewer segments: a truncated
container never yields altered or reordered contents. -/
theorem container_truncation (md : List Nat) (segs : List (List Nat)) (d : List Nat)
    (h : packContainer md segs = some d) (k : Nat) (hk : k < d.length) :
    unpackContainer (d.take k) = none ∨
      ∃ kept lost, segs = kept ++ lost ∧ lost ≠ [] ∧ unpackContainer (d.take k) = some (md, kept) := by
  simp only [packContainer] at h
  split at h
  · rename_i hh t h1 h2
    simp only [Option.some.injEq] at h; subst h
    obtain ⟨hl, hu⟩ := packU32_spec h1
    by_cases hk4 : k < 4
    · left
      simp only [unpackContainer]
      rw [unpackU32_short (by simp; omega)]
    have hu' : unpackU32 ((hh ++ md ++ t).take k) = some (md.length, (md ++ t).take (k - 4)) := by
      apply unpackU32_take _ k (by omega)
      rw [List.append_assoc, hu]
    simp only [unpackContainer, hu']
    simp only [List.length_append] at hk
    by_cases hs : ((md ++ t).take (k - 4)).length < md.length
    · left; simp only [hs, if_true]
    · simp only [hs, if_false]
      simp only [List.length_take, List.length_append] at hs
      have hdrop : ((md ++ t).take (k - 4)).drop md.length = t.take (k - 4 - md.length) := by
        rw [List.drop_take, List.drop_left]
      have htake : ((md ++ t).take (k - 4)).take md.length = md := by
        rw [List.take_take, Nat.min_eq_left (by omega), List.take_left]
      rw [hdrop, htake]
      rcases unpackSegsF_trunc segs t h2 (k - 4 - md.length) (by omega) (t.take (k - 4 - md.length)).length
        (by simp; omega) with h | ⟨s1, s2, h3, h4, h5⟩
      · left; rw [h]
      · right; exact ⟨s1, s2, h3, h4, by rw [h5]⟩
  · cases h

/-- C03d. `loads_binary(dumps_binary(v)) = v` for every value, given only that the JSON text codec of the metadata
is lossless. -/
theorem binary_value_roundtrip (enc : Json → List Nat) (dec : List Nat → Option Json)
    (hcodec : ∀ j, dec (enc j) = some j) (eq : PyVal → PyVal → Bool) (v : PyVal) (hv : v.WF eq) (d : List Nat)
    (h : dumpsBinary enc v = some d) : loadsBinary dec eq d = some v := by
  simp only [dumpsBinary] at h
  split at h; · cases h
  rename_i j segs hj
  simp only [loadsBinary, container_roundtrip _ _ _ h, hcodec]
  exact fromBinF_toBin eq v hv [] segs segs j hj (List.prefix_refl _) _ (Nat.le_refl _)

/-- C03e. Every proper prefix of a `dumps_binary` output is rejected by `loads_binary`: no truncation point yields a
value. -/
theorem binary_truncation_rejected (enc : Json → List Nat) (dec : List Nat → Option Json)
    (hcodec : ∀ j, dec (enc j) = some j) (eq : PyVal → PyVal → Bool) (v : PyVal) (d : List Nat)
    (h : dumpsBinary enc v = some d) (k : Nat) (hk : k < d.length) : loadsBinary dec eq (d.take k) = none := by
  simp only [dumpsBinary] at h
  split at h; · cases h
  rename_i j segs hj
  rcases container_truncation _ _ _ h k hk with h1 | ⟨kept, lost, h2, h3, h4⟩
  · simp [loadsBinary, h1]
  · simp only [loadsBinary, h4, hcodec]
    refine fromBinF_missing eq v [] segs kept j hj (by simp) ?_ _
    subst h2
    have := List.length_pos_iff.mpr h3
    simp; omega

/-- the hypotheses of C03d/C03e are met by a value with four binary segments (any lossless codec; here one exists because
the map is only required to be injective on the one tree used) -/
example (enc : Json → List Nat) (henc : ∀ j, (enc j).length < 2 ^ 32) :
    ∃ d, dumpsBinary enc (.tuple [.bytes [1, 2], .int 3, .ndarray "uint8" [2] [7, 8],
      .tensor "uint8" [2] [7, 8], .tensorObj [1] [.leaf (.ecPoint [4, 1])], .table [1, 2, 3]]) = some d := by
  simp only [dumpsBinary, toBin, toBinList, addSegment]
  exact (container_pack_succeeds_iff _ _).mpr ⟨henc _, by simp⟩

end Verif.Serde
