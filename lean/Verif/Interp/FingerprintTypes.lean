import Verif.Serde.TypeText
import Verif.Interp.FingerprintProps
/-!
# C15: the types in the execution key

The key of a graph contains `str(type)` of every value (runtime/interpreter.py:583,589).  Here graphs carry types, and the
text of each type is computed as the code does.
-/
namespace Verif.Interp.Fp
open Verif.Serde

mutual
/-- `Graph` with types (edsl/graph.py:183-208) -/
inductive TG (N : Type) where
  | mk (inputs : List (N × Ty)) (ops : List (TO N)) (outputs : List N)
/-- `Operation` with types (edsl/graph.py:129-150) -/
inductive TO (N : Type) where
  | mk (opcode : String) (ins : List N) (outs : List (N × Ty)) (attrs : List (String × Attr)) (regions : List (TG N))
end

/-- `str(v.type)` next to each value (runtime/interpreter.py:583,589) -/
def showVals {N : Type} (l : List (N × Ty)) : List (N × String) := l.map fun v => (v.1, String.ofList v.2.text)

mutual
/-- the graph as the fingerprint sees it -/
def TG.shown {N : Type} : TG N → FG N
  | .mk ins ops outs => .mk (showVals ins) (shownOps ops) outs
/-- see `TG.shown` -/
def shownOps {N : Type} : List (TO N) → List (FO N)
  | [] => []
  | .mk c ins outs attrs regs :: os => .mk c ins (showVals outs) attrs (shownRegs regs) :: shownOps os
/-- see `TG.shown` -/
def shownRegs {N : Type} : List (TG N) → List (FG N)
  | [] => []
  | r :: rs => r.shown :: shownRegs rs
end

/-! ## Specification -/

mutual
/-- all types of a graph, in the order of definition: inputs, then for every op its outputs and the types of its regions -/
def TG.types {N : Type} : TG N → List Ty
  | .mk ins ops _ => ins.map Prod.snd ++ typesOps ops
/-- see `TG.types` -/
def typesOps {N : Type} : List (TO N) → List Ty
  | [] => []
  | .mk _ _ outs _ regs :: os => outs.map Prod.snd ++ (typesRegs regs ++ typesOps os)
/-- see `TG.types` -/
def typesRegs {N : Type} : List (TG N) → List Ty
  | [] => []
  | r :: rs => r.types ++ typesRegs rs
end

/-! ## Proofs -/

mutual
/-- type texts in a fingerprint -/
def fpTexts : FPG → List String
  | .mk ins ops _ => ins ++ fpTextsOps ops
/-- see `fpTexts` -/
def fpTextsOps : List FPO → List String
  | [] => []
  | .mk _ _ outs _ _ regs :: os => outs ++ (fpTextsRegs regs ++ fpTextsOps os)
/-- see `fpTexts` -/
def fpTextsRegs : List FPG → List String
  | [] => []
  | r :: rs => fpTexts r ++ fpTextsRegs rs
end

section
variable (sha : List Nat → String) (le : Stable → Stable → Bool) {N : Type} [DecidableEq N]

theorem showVals_texts (l : List (N × Ty)) : (showVals l).map Prod.snd = (l.map Prod.snd).map fun t => String.ofList t.text := by
  simp [showVals]

mutual
theorem fpTexts_shown : ∀ g : TG N, fpTexts (fp sha le g.shown) = g.types.map fun t => String.ofList t.text
  | .mk ins ops outs => by
    rw [TG.shown, fp, fpTexts, TG.types, List.map_append, showVals_texts, fpTexts_ops]
theorem fpTexts_ops : ∀ (ops : List (TO N)) (m : List N),
    fpTextsOps (fpOps sha le m (shownOps ops)).1 = (typesOps ops).map fun t => String.ofList t.text
  | [], m => by simp [shownOps, fpOps, fpTextsOps, typesOps]
  | .mk c ins outs attrs regs :: os, m => by
    rw [shownOps, fpOps, fpTextsOps, typesOps, List.map_append, List.map_append, showVals_texts, fpTexts_regs regs,
      fpTexts_ops os]
theorem fpTexts_regs : ∀ rs : List (TG N),
    fpTextsRegs (fpRegs sha le (shownRegs rs)) = (typesRegs rs).map fun t => String.ofList t.text
  | [] => by simp [shownRegs, fpRegs, fpTextsRegs, typesRegs]
  | r :: rs => by rw [shownRegs, fpRegs, fpTextsRegs, typesRegs, List.map_append, fpTexts_shown r, fpTexts_regs rs]
end

theorem texts_determine : ∀ l l' : List Ty, (∀ t ∈ l, t.PlainNames) → (∀ t ∈ l', t.PlainNames) →
    (l.map fun t => String.ofList t.text) = (l'.map fun t => String.ofList t.text) → l.map Ty.hide = l'.map Ty.hide
  | [], [], _, _, _ => rfl
  | [], _ :: _, _, _, h => by simp at h
  | _ :: _, [], _, _, h => by simp at h
  | t :: l, t' :: l', hp, hp', h => by
    simp only [List.map_cons, List.cons.injEq] at h
    have e : t.text = t'.text := by
      have := congrArg String.toList h.1
      simpa using this
    rw [List.map_cons, List.map_cons, (type_text_partial t t' (hp _ List.mem_cons_self) (hp' _ List.mem_cons_self)).mp e,
      texts_determine l l' (fun x m => hp x (List.mem_cons_of_mem _ m)) (fun x m => hp' x (List.mem_cons_of_mem _ m)) h.2]

/-- **C15** (part of: graphs with the same key have the same types) For graphs whose types have plain names, an equal
fingerprint means equal types everywhere, also in regions, up to the encryption schemas of secret-shared types.
Missing: those schemas and names with quotes or brackets. -/
theorem key_determines_types_partial (g g' : TG N) (h : ∀ t ∈ g.types, t.PlainNames) (h' : ∀ t ∈ g'.types, t.PlainNames)
    (e : fp sha le g.shown = fp sha le g'.shown) : g.types.map Ty.hide = g'.types.map Ty.hide := by
  apply texts_determine _ _ h h'
  rw [← fpTexts_shown sha le g, e, fpTexts_shown]

/-- the hypotheses are met by a graph with an operation that has a region -/
example : ∀ t ∈ (TG.mk [(0, .mp (.float 32) (some [0, 1]))]
    [.mk "simp.pcall_static" [0] [(1, .mp (.float 32) (some [0]))] [] [.mk [(0, .float 32)] [] [0]]] [1] : TG Nat).types,
    t.PlainNames := by
  intro t m
  simp only [TG.types, typesOps, typesRegs, List.map_cons, List.map_nil, List.append_nil, List.cons_append, List.nil_append,
    List.mem_cons, List.not_mem_nil, or_false] at m
  rcases m with rfl | rfl | rfl <;> exact trivial

end

/-- **C15** (violated) two well-formed graphs that differ in the encryption schema of their input get the same key -/
theorem key_ignores_schema_violated (sha : List Nat → String) (le : Stable → Stable → Bool) :
    ∃ g g' : TG Nat, WF g.shown ∧ WF g'.shown ∧ (∀ t ∈ g.types ++ g'.types, t.valid = true) ∧ g.types ≠ g'.types ∧
      fp sha le g.shown = fp sha le g'.shown := by
  refine ⟨.mk [(0, .ss (.float 32) "ss")] [] [0], .mk [(0, .ss (.float 32) "semi2k")] [] [0], ?_, ?_, ?_, ?_, ?_⟩
  · exact .mk (by decide) (by decide) .nil
  · exact .mk (by decide) (by decide) .nil
  · intro t m
    simp only [TG.types, typesOps, List.map_cons, List.map_nil, List.append_nil, List.cons_append, List.nil_append,
      List.mem_cons, List.not_mem_nil, or_false] at m
    rcases m with rfl | rfl <;> decide
  · simp [TG.types, typesOps]
  · rfl

end Verif.Interp.Fp
