import Verif.Tool.ProgramProps
/-!
# C38, C39 — what the compiler records
-/
namespace Verif.Tool
open Verif.Serde Verif.Graph

/-- the party a python number names: `int(p)`, which maps `True` to 1 and `False` to 0 -/
def partyOf : PyVal → Option Nat
  | .int n => if 0 ≤ n then some n.natAbs else none
  | .bool true => some 1
  | .bool false => some 0
  | _ => none

theorem mapOpt_partyId (xs : List PyVal) (ps : List Nat) :
    mapOpt partyId xs = some ps ↔ xs.map partyOf = ps.map some := by
  induction xs generalizing ps with
  | nil => cases ps <;> simp [mapOpt]
  | cons x xs ih =>
    have hx : partyId x = partyOf x := by
      cases x with
      | int n =>
        simp only [partyId, partyOf]
        by_cases h : n < 0
        · rw [if_pos h, if_neg (by omega)]
        · rw [if_neg h, if_pos (by omega)]
          congr 1; omega
      | bool b => cases b <;> rfl
      | _ => rfl
    simp only [mapOpt, List.map_cons, hx]
    cases h : partyOf x with
    | none => cases ps <;> simp
    | some p =>
      cases h2 : mapOpt partyId xs with
      | none =>
        simp only [reduceCtorEq, false_iff]
        cases ps with
        | nil => simp
        | cons q qs =>
          simp only [List.map_cons, List.cons.injEq, not_and]
          intro _ e
          rw [(ih qs).mpr e] at h2
          cases h2
      | some qs =>
        have := (ih qs).mp h2
        simp only [Option.some.injEq, this]
        constructor
        · rintro rfl; simp
        · intro e
          cases ps with
          | nil => simp at e
          | cons r rs =>
            simp only [List.map_cons, List.cons.injEq, Option.some.injEq] at e
            rw [e.1, List.map_inj_right (fun _ _ h => Option.some.inj h) |>.mp e.2]

/-- **C39, the attribute** A `parties` attribute is read as its list of numbers, in order; a missing attribute and `None` are
no parties; anything else (a negative number, a string, a mapping) stops the compilation. -/
theorem parties_attribute (v : Option PyVal) (ps : List Nat) :
    partiesVal v = some ps ↔
      ((v = none ∨ v = some .none) ∧ ps = []) ∨
        ∃ xs, (v = some (.list xs) ∨ v = some (.tuple xs)) ∧ xs.map partyOf = ps.map some := by
  cases v with
  | none => simp [partiesVal, eq_comm]
  | some v => cases v <;> simp [partiesVal, mapOpt_partyId] <;> exact eq_comm

/-- `(0, True, 3)` names the parties 0, 1 and 3; `(-1,)` names none -/
example : partiesVal (some (.tuple [.int 0, .bool true, .int 3])) = some [0, 1, 3] ∧ partiesVal (some (.tuple [.int (-1)])) = none := by
  decide

/-- **C38, the header** The compiled program carries the name given by the caller, or the name of the traced function if no
name or the empty name is given; the signature is the number of inputs and outputs of the graph. -/
theorem compiled_header (H : Json → String) (now : String) (ver name : Option String) (t : Traced) (p : Program)
    (h : compileProgram H now ver name t = some p) :
    (∀ s, name = some s → s ≠ "" → p.name = some s) ∧ ((name = none ∨ name = some "") → p.name = t.name) ∧
      p.inputArity = nInputs t.graph ∧ p.outputArity = nOutputs t.graph := by
  simp only [compileProgram] at h
  split at h
  · cases h
  · split at h
    · cases h
    · split at h
      · cases h
      · split at h
        · cases h
          refine ⟨?_, ?_, rfl, rfl⟩
          · rintro s rfl hs
            simp [nameOr, hs]
          · rintro (rfl | rfl) <;> simp [nameOr]
        · cases h

/-- both cases occur -/
example (H : Json → String) :
    (∃ p, compileProgram H "t0" none (some "mine") ⟨exTableB.graph, 0, 0, 0, some "f"⟩ = some p ∧ p.name = some "mine") ∧
    (∃ p, compileProgram H "t0" none (some "") ⟨exTableB.graph, 0, 0, 0, some "f"⟩ = some p ∧ p.name = some "f") :=
  ⟨⟨_, rfl, rfl⟩, ⟨_, rfl, rfl⟩⟩

end Verif.Tool
