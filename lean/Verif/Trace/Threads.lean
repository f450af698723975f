import Verif.Trace.Context
/-!
# C10 — the context stack and threads (edsl/context.py:184-205)

`_context_stack` is one list of the module; every thread enters and leaves its contexts on it.
-/
namespace Verif.Trace.Threads
open Verif.Trace.Ctx

/-- what a thread does: `__enter__`, `__exit__` (edsl/context.py:148-155), looking up the current context (edsl/primitive.py:232) -/
inductive Act where
  | enter (c : Nat)
  | exit
  | observe
  deriving DecidableEq

/-- one action on the module's stack: new stack, what was observed -/
def step : Act → Stack → Stack × Option (Option Nat)
  | .enter c, s => (push s c, none)
  | .exit, s => (pop s, none)
  | .observe, s => (s, some (current s))

/-- a schedule of actions of threads: the observations with the thread that made them -/
def run : List (Nat × Act) → Stack → List (Nat × Option Nat)
  | [], _ => []
  | (t, a) :: es, s => match (step a s).2 with
    | some o => (t, o) :: run es (step a s).1
    | none => run es (step a s).1

/-- a thread's own blocks, innermost first: entering adds one, leaving drops the innermost -/
def ownBlocks : Act → List Nat → List Nat
  | .enter c, l => c :: l
  | .exit, l => l.tail
  | .observe, l => l

/-- **Specification**: every thread sees its own innermost context, or the base when it is in none -/
def ideal (base : Stack) : List (Nat × Act) → (Nat → Stack) → List (Nat × Option Nat)
  | [], _ => []
  | (t, .observe) :: es, m => (t, ((m t).head?.or base.head?)) :: ideal base es m
  | (t, a) :: es, m => ideal base es (fun u => if u = t then ownBlocks a (m t) else m u)

/-- no thread leaves more than it entered, and a thread acts only while the others are in no context -/
def Serial : List (Nat × Act) → (Nat → Stack) → Prop
  | [], _ => True
  | (t, a) :: es, m => (∀ u, u ≠ t → m u = []) ∧ (a = .exit → m t ≠ []) ∧ Serial es (fun u => if u = t then ownBlocks a (m t) else m u)

theorem serial_run (base : Stack) : ∀ (es : List (Nat × Act)) (m : Nat → Stack) (t : Nat), (∀ u, u ≠ t → m u = []) → Serial es m →
    run es (m t ++ base) = ideal base es m
  | [], _, _, _, _ => rfl
  | (t, a) :: es, m, t0, h0, h => by
    obtain ⟨h1, h2, h3⟩ := h
    have hs : m t0 = m t := by
      by_cases ht : t0 = t
      · rw [ht]
      · rw [h0 t (fun e => ht e.symm), h1 t0 ht]
    rw [hs]
    have hnext : ∀ u, u ≠ t → (fun u => if u = t then ownBlocks a (m t) else m u) u = [] := by
      intro u hu; simp only [if_neg hu]; exact h1 u hu
    have ih := serial_run base es _ t hnext h3
    simp only [if_true] at ih
    cases a with
    | enter c => simp only [run, step, ideal]; simpa [ownBlocks, push] using ih
    | exit =>
      simp only [run, step, ideal]
      obtain ⟨x, r, hx⟩ := List.exists_cons_of_ne_nil (h2 rfl)
      simp only [ownBlocks, hx, pop, List.cons_append, List.tail_cons] at ih ⊢
      exact ih
    | observe =>
      simp only [run, step, ideal, current]
      have hm : (fun u => if u = t then m t else m u) = m := by
        funext u; by_cases hu : u = t <;> simp [hu]
      simp only [ownBlocks, hm] at ih
      rw [ih]
      cases hc : m t <;> simp

/-- **C10, threads (partial)**: threads that use contexts one after the other see, each, its own innermost context (the base context outside its own). -/
theorem threads_serial_partial (base : Stack) (es : List (Nat × Act)) (h : Serial es (fun _ => [])) : run es base = ideal base es (fun _ => []) :=
  serial_run base es (fun _ => []) 0 (fun _ _ => rfl) h

/-- **C10 is violated for threads that overlap**: thread 0 enters context 1; thread 1 enters context 2; now thread 0 works in context 2, and
when it leaves its block thread 1 is thrown out of its own and goes on in context 1. -/
theorem threads_overlap_violated :
    run [(0, .enter 1), (1, .enter 2), (0, .observe), (0, .exit), (1, .observe)] [] = [(0, some 2), (1, some 1)] ∧
    ideal [] [(0, .enter 1), (1, .enter 2), (0, .observe), (0, .exit), (1, .observe)] (fun _ => []) = [(0, some 1), (1, some 2)] := by decide

example : Serial [(0, .enter 1), (0, .enter 5), (0, .observe), (0, .exit), (0, .observe), (0, .exit), (1, .observe), (1, .enter 2), (1, .observe), (1, .exit)] (fun _ => []) := by
  simp [Serial, ownBlocks]
  refine ⟨?_, ?_, ?_, ?_, ?_, ?_, ?_⟩ <;> intro u <;> intros <;> simp_all

end Verif.Trace.Threads
