/-!
# C10: the context stack (`edsl/context.py`)

Programs are nested `with` blocks, exceptions, `try` and root changes; contexts are identified by a number.  One thread
(the stack is a module global).
-/
namespace Verif.Trace.Ctx

/-- `_context_stack` (edsl/context.py:184), top first (the code appends at the end) -/
abbrev Stack := List Nat

/-- `get_current_context` (edsl/context.py:189-194) -/
def current (s : Stack) : Option Nat := s.head?
/-- `push_context` (edsl/context.py:197-199) -/
def push (s : Stack) (c : Nat) : Stack := c :: s
/-- `pop_context` (edsl/context.py:202-208): no error on an empty stack -/
def pop : Stack → Stack
  | [] => []
  | _ :: s => s
/-- `find_context` (edsl/context.py:211-230): from the top -/
def findContext (p : Nat → Bool) (s : Stack) : Option Nat := s.find? p
/-- `set_root_context` (edsl/context.py:289-315); `none` = RuntimeError -/
def setRoot (s : Stack) (c : Nat) (force : Bool) : Option Stack :=
  if force then some [c]
  else match current s with
    | some _ => none
    | none => some (push s c)

/-- `find_context_with_state` (edsl/context.py:233-242) through `has_state` (edsl/context.py:99-108).  `states c` are the
state keys of context `c`; `none` = the context has no `_states` attribute, which is the case for every `Tracer`: its
`__init__` (edsl/tracer.py:97-98) does not call `Context.__init__`.  Outer `none` = AttributeError. -/
def findWithState (states : Nat → Option (List String)) (key : String) : Stack → Option (Option Nat)
  | [] => some none
  | c :: s => match states c with
    | none => none
    | some ks => if key ∈ ks then some (some c) else findWithState states key s

/-- python statements that touch the stack -/
inductive Cmd where
  /-- read `get_current_context()` -/
  | observe
  /-- `raise` -/
  | raise
  /-- `with c: body` -/
  | within (c : Nat) (body : List Cmd)
  /-- `try: body except: pass` -/
  | attempt (body : List Cmd)
  /-- `set_root_context(c, force)` -/
  | root (c : Nat) (force : Bool)

mutual
/-- run one statement: did it complete normally?, the stack after it, the contexts observed -/
def exec : Cmd → Stack → Bool × Stack × List (Option Nat)
  | .observe, s => (true, s, [current s])
  | .raise, s => (false, s, [])
  | .within c body, s =>                      -- `__enter__`/`__exit__` (edsl/context.py:148-155)
    let r := execL body (push s c)
    (r.1, pop r.2.1, r.2.2)
  | .attempt body, s =>
    let r := execL body s
    (true, r.2.1, r.2.2)
  | .root c f, s => match setRoot s c f with
    | none => (false, s, [])
    | some s' => (true, s', [])
/-- run a block; an exception skips the rest -/
def execL : List Cmd → Stack → Bool × Stack × List (Option Nat)
  | [], s => (true, s, [])
  | c :: cs, s =>
    let r := exec c s
    if r.1 then
      let q := execL cs r.2.1
      (q.1, q.2.1, r.2.2 ++ q.2.2)
    else r
end

/-! ## Specification: lexical scoping -/

mutual
/-- Contexts observed by a program in which `env` is the innermost enclosing context; no stack.  `root` may not occur
(it is rejected inside any context). -/
def lex : Cmd → Option Nat → Bool × List (Option Nat)
  | .observe, env => (true, [env])
  | .raise, _ => (false, [])
  | .within c body, _ => lexL body (some c)
  | .attempt body, env => (true, (lexL body env).2)
  | .root _ _, _ => (false, [])
/-- see `lex` -/
def lexL : List Cmd → Option Nat → Bool × List (Option Nat)
  | [], _ => (true, [])
  | c :: cs, env =>
    let r := lex c env
    if r.1 then let q := lexL cs env; (q.1, r.2 ++ q.2) else r
end

mutual
/-- no forced root change anywhere -/
def noForce : Cmd → Bool
  | .root _ f => !f
  | .within _ b => noForceL b
  | .attempt b => noForceL b
  | _ => true
/-- see `noForce` -/
def noForceL : List Cmd → Bool
  | [] => true
  | c :: cs => noForce c && noForceL cs
end

mutual
theorem exec_lex (c : Cmd) (s : Stack) (hs : s ≠ []) (h : noForce c = true) :
    exec c s = ((lex c (current s)).1, s, (lex c (current s)).2) := by
  match c with
  | .observe => rfl
  | .raise => rfl
  | .within k body =>
    simp only [noForce] at h
    simp only [exec, lex]
    rw [execL_lex body (push s k) (by simp [push]) h]
    rfl
  | .attempt body =>
    simp only [noForce] at h
    simp only [exec, lex]
    rw [execL_lex body s hs h]
  | .root k f =>
    simp only [noForce, Bool.not_eq_true'] at h
    subst h
    simp only [exec, lex, setRoot]
    cases s with
    | nil => exact absurd rfl hs
    | cons a s => simp [current]
theorem execL_lex (cs : List Cmd) (s : Stack) (hs : s ≠ []) (h : noForceL cs = true) :
    execL cs s = ((lexL cs (current s)).1, s, (lexL cs (current s)).2) := by
  match cs with
  | [] => rfl
  | c :: cs =>
    simp only [noForceL, Bool.and_eq_true] at h
    simp only [execL, lexL]
    rw [exec_lex c s hs h.1]
    simp only
    split
    · rw [execL_lex cs s hs h.2]
    · rename_i h'; simp only [h']
end

/-- **C10** Inside any context, every program that does not force a root change sees exactly the lexically innermost
context at every point, whatever is raised and caught, and leaves the stack as it was. -/
theorem context_lexical (cs : List Cmd) (s : Stack) (hs : s ≠ []) (h : noForceL cs = true) :
    execL cs s = ((lexL cs s.head?).1, s, (lexL cs s.head?).2) := execL_lex cs s hs h

/-- **C10** `with c: body`, from any stack, also the empty one: afterwards (normally or by exception) the stack is the one
before, and the body saw `c` as current context. -/
theorem with_block_restores (c : Nat) (body : List Cmd) (s : Stack) (h : noForceL body = true) :
    (exec (.within c body) s).2.1 = s ∧ (exec (.within c body) s).2.2 = (lexL body (some c)).2 := by
  simp only [exec]
  rw [execL_lex body (push s c) (by simp [push]) h]
  exact ⟨rfl, rfl⟩

/-- nested blocks, a raise that is caught and a refused root change meet the hypothesis; a forced root change does not -/
example : noForceL [.within 1 [.observe, .raise], .attempt [.within 2 [.root 5 false]], .observe] = true ∧
    noForceL [.within 1 [.root 5 true]] = false := by decide

/-- **C10** `find_context` returns the innermost context satisfying the predicate, and nothing iff none does. -/
theorem find_context_innermost (p : Nat → Bool) (s : Stack) :
    (∀ c, findContext p s = some c ↔ ∃ inner outer, s = inner ++ c :: outer ∧ p c = true ∧ ∀ x ∈ inner, p x = false) ∧
    (findContext p s = none ↔ ∀ x ∈ s, p x = false) := by
  constructor
  · intro c
    simp only [findContext]
    rw [List.find?_eq_some_iff_append]
    constructor
    · rintro ⟨hp, as, bs, rfl, hn⟩
      exact ⟨as, bs, rfl, hp, fun x hx => by simpa using hn x hx⟩
    · rintro ⟨as, bs, rfl, hp, hn⟩
      exact ⟨hp, as, bs, rfl, fun x hx => by simpa using hn x hx⟩
  · simp [findContext]

/-- **C10** Without force, setting the root succeeds exactly on an empty stack and then is the only context. -/
theorem set_root_unforced (s : Stack) (c : Nat) : setRoot s c false = if s = [] then some [c] else none := by
  cases s with
  | nil => rfl
  | cons a s => simp [setRoot, current]

/-- **C10** (violated part) A forced root change inside a `with` block is undone by leaving the block: the new root is
popped, so "all subsequent operations will use this context" (edsl/context.py:292-293) fails after the block. -/
theorem forced_root_in_with_violated :
    ∃ (s : Stack) (c r : Nat), (exec (.within c [.root r true]) s).1 = true ∧
      current (exec (.within c [.root r true]) s).2.1 = none := ⟨[1], 2, 3, rfl, rfl⟩

/-- **C10** When every context on the stack has a state table, `find_context_with_state` returns the innermost context with
that state. -/
theorem find_with_state_partial (states : Nat → Option (List String)) (key : String) (s : Stack)
    (h : ∀ c ∈ s, states c ≠ none) :
    findWithState states key s = some (findContext (fun c => decide (key ∈ (states c).getD [])) s) := by
  induction s with
  | nil => rfl
  | cons c s ih =>
    simp only [findWithState, findContext, List.find?_cons]
    cases hc : states c with
    | none => exact absurd hc (h c (by simp))
    | some ks =>
      simp only [Option.getD_some]
      have ih' := ih (fun x hx => h x (by simp [hx]))
      by_cases hk : key ∈ ks
      · simp [hk]
      · simp only [hk, if_false, decide_false]; exact ih'

/-- **C10** (violated part) With a tracer on top (contexts 5, no `_states`) the search raises although an outer context has
the state. -/
theorem find_with_state_violated : ∃ (states : Nat → Option (List String)) (s : Stack),
    findWithState states "dialect.simp" s = none ∧ ∃ c ∈ s, ∃ ks, states c = some ks ∧ "dialect.simp" ∈ ks :=
  ⟨fun c => if c = 5 then none else some ["dialect.simp"], [5, 1], rfl, 1, by simp, _, rfl, by simp⟩

example : (execL [.within 7 [.observe, .attempt [.within 8 [.observe, .raise]], .observe], .observe] [1]) =
    (true, [1], [some 7, some 8, some 7, some 1]) := rfl

end Verif.Trace.Ctx
