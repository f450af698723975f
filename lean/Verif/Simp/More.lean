import Verif.Simp.Props
/-!
# C19, C22 — which shuffles are accepted, and loops whose condition yields nothing
-/
namespace Verif.Simp
open Verif.Comm

section
variable {V T : Type} [DecidableEq T]

/-- **C19, acceptance** `shuffle` is accepted when the program is built exactly when its argument exists, the routing table is
not empty and, if the parties of the argument are known, every source is one of them; the result has the type of the
argument and belongs to the receivers. -/
theorem shuffle_accept_iff (routing : List (Nat × Nat)) (arg : Nat) (Γ r : List (Ty T)) :
    opTy (V := V) false (.shuffle routing arg) Γ = some r ↔
      ∃ t, Γ[arg]? = some t ∧ routing ≠ [] ∧ (∀ ps, t.parties = some ps → ∀ e ∈ routing, e.2 ∈ ps) ∧
        r = [⟨t.vt, some (sortedSet (routing.map Prod.fst))⟩] := by
  simp only [opTy]
  cases h : Γ[arg]? with
  | none => simp
  | some t =>
    simp only [Option.bind_some, Bool.not_false, Bool.true_or, Bool.and_true, Bool.and_eq_true, Bool.not_eq_eq_eq_not, Bool.not_true,
      Option.some.injEq, exists_eq_left']
    have hs : shuffleCheck routing t.parties = true ↔ ∀ ps, t.parties = some ps → ∀ e ∈ routing, e.2 ∈ ps := by
      cases t.parties with
      | none => simp [shuffleCheck]
      | some ps => simp [shuffleCheck, List.all_eq_true]
    have he : routing.isEmpty = false ↔ routing ≠ [] := by cases routing <;> simp
    by_cases hc : routing ≠ [] ∧ ∀ ps, t.parties = some ps → ∀ e ∈ routing, e.2 ∈ ps
    · rw [if_pos ⟨he.mpr hc.1, hs.mpr hc.2⟩]
      simp only [Option.some.injEq]
      exact ⟨fun e => ⟨hc.1, hc.2, e.symm⟩, fun e => e.2.2.symm⟩
    · rw [if_neg (fun e => hc ⟨he.mp e.1, hs.mp e.2⟩)]
      simp only [reduceCtorEq, false_iff]
      exact fun e => hc ⟨e.1, e.2.1⟩

/-- a value of unknown parties is accepted, one that a source does not hold is not -/
example : opTy (V := Nat) false (.shuffle [(2, 1)] 0) [⟨(), none⟩] = some [⟨(), some [2]⟩] ∧
    opTy (V := Nat) false (.shuffle [(2, 1)] 0) [⟨(), some [0]⟩] = none := by decide

/-- **C22, empty condition** A loop whose condition block yields no value at all counts as finished: every party keeps the
initial state. -/
theorem loop_without_condition_value (tr : V → Bool) (N : Nat) (state caps : List Nat) (body : Region V T)
    (σ cs s : Nat → List (LV V)) (h0 : ∀ p, p < N → pick (σ p) state = some (s p))
    (hcs : ∀ p, p < N → pick (σ p) caps = some (cs p)) (c : Nat → Nat → Nat) (hc : Symm c) :
    ∃ f0, ∀ f, f0 ≤ f → ∃ t, Always N (syncSt (fun p => opRun tr N f p (.loop state caps (.mk .nil []) body) (σ p)) c) t ∧
      ∀ p, p < N → t.proc p = .ret (s p) := by
  refine while_loop_correct tr N state caps (.mk .nil []) body σ cs 0 (fun _ => s) (fun _ _ => []) h0 hcs ?_ ?_ ?_ ?_ c hc
  · intro i _
    exact .region _ _ _ _ _ (.nil _) (fun _ _ => rfl)
  · intro i hi; omega
  · intro i p hi; omega
  · intro p _; rfl

/-- two parties, one state value and one captured value -/
example : (∀ p : Nat, p < 2 → pick ([some 4, some p] : List (LV Nat)) [0] = some [some 4]) ∧
    ∀ p : Nat, p < 2 → pick ([some 4, some p] : List (LV Nat)) [1] = some [some p] := ⟨fun _ _ => rfl, fun _ _ => rfl⟩

end

end Verif.Simp
