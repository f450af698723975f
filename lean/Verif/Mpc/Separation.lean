import Verif.Mpc.Psi
/-!
# Domain separation of the hashes

Three protocols hash rows with `vec_hash` (extension.py:72-108): the transfers (separator 1), the OPRF (0x0CDF) and the tags of the intersection
(0x1111).  What is hashed is compared here, not hash values: a statement holds for *every* environment, so the inputs are meant.
-/
namespace Verif.Mpc
open Verif.Kern

/-- **C49 (inputs).**  In every environment the three hashes are those of inputs that differ between protocols, whatever the rows, and within a
protocol are equal only if the rows are. -/
theorem hash_inputs_separated {A : Type} (row row' : Fin iknpK → Bool) (bytes bytes' : List Nat) (t t' : Blk) :
    ∃ p p' q q' r r' : List Nat,
      (∀ E : IknpEnv A, vecHash E row = E.hash p ∧ vecHash E row' = E.hash p' ∧ vecHashBytes E oprfSep bytes = E.hash q ∧
        vecHashBytes E oprfSep bytes' = E.hash q' ∧ tagHash E t = (List.finRange 16).map (fun i => E.hash r ⟨i.val, by omega⟩) ∧
        tagHash E t' = (List.finRange 16).map fun i => E.hash r' ⟨i.val, by omega⟩) ∧
      p ≠ q ∧ q ≠ r ∧ p ≠ r ∧ (p = p' ↔ row = row') ∧ (q = q' ↔ bytes = bytes') := by
  refine ⟨_, _, _, _, _, _, fun E => ⟨rfl, rfl, rfl, rfl, rfl, rfl⟩, ?_, ?_, ?_, ⟨fun h => ?_, fun h => by rw [h]⟩,
    ⟨fun h => List.append_cancel_left h, fun h => by rw [h]⟩⟩
  · intro h
    have := congrArg (fun l => l[0]?) h
    simp [sepBytes, oprfSep] at this
  · intro h
    have := congrArg (fun l => l[0]?) h
    simp [sepBytes, oprfSep, tagBytes, le8, List.range_succ] at this
  · intro h
    have := congrArg (fun l => l[0]?) h
    simp [sepBytes, tagBytes, le8, List.range_succ] at this
  · have h := List.append_cancel_left h
    unfold rowBytes at h
    funext i
    have := (List.map_inj_left.1 h) i (List.mem_finRange i)
    revert this
    cases row i <;> cases row' i <;> simp

/-- The separator of the transfers in front of the row: eight little-endian bytes. -/
theorem transfer_input {A : Type} (E : IknpEnv A) (row : Fin iknpK → Bool) : vecHash E row = vecHashBytes E 1 (rowBytes row) := rfl

example : sepBytes oprfSep = [0xDF, 0x0C, 0, 0, 0, 0, 0, 0] := by decide

end Verif.Mpc
