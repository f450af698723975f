import Verif.Comm.Scope
import Mathlib.Tactic.Ring
/-!
# C109 — in which communication scope the operations of nested evaluations talk

`Interpreter` keeps the current `CommContext` in a thread-local variable (runtime/interpreter.py:890-904).  A run on one thread
is described by what the operation handlers did: use `current_comm_ctx()` to send or receive (`talk`), evaluate a nested graph
(`eval`: calls, conditionals, loops), or raise (`fail`).  Simplified: one thread, i.e. no operation is in `async_ops` (the
operations in `DEFAULT_ASYNC_OPS` other than `simp.shuffle` do not communicate); data flow is the subject of C11-C13.
-/
namespace Verif.Interp.Scopes
open Verif.Comm

mutual
/-- what one operation handler did, in order (backends/simp_worker/ops.py:39-185) -/
inductive Acts where
  | nil
  /-- `interpreter.current_comm_ctx()` followed by a send or receive (ops.py:91-101) -/
  | talk (rest : Acts)
  /-- `interpreter.evaluate_graph(g, …)` (ops.py:56, 78, 134, 156, 167); `key` is `_graph_exec_key(g)` -/
  | eval (key : String) (ops : Ops) (rest : Acts)
  /-- the handler raises -/
  | fail
/-- the operations of a graph in the order in which they were started, with their index in `graph.operations` -/
inductive Ops where
  | nil
  | cons (idx : Nat) (a : Acts) (rest : Ops)
end

/-- Thread state: the `CommContext` objects created so far (id, spawn counter), the thread-local variable
(a reference to one of them) and the scopes used by sends and receives so far. -/
structure St where
  heap : List CommCtx
  tls : Option Nat
  log : List String

/-- `current_comm_ctx()` and a message in that scope (runtime/interpreter.py:890-904); `none` = RuntimeError -/
def say (s : St) : Option St :=
  match s.tls with
  | none => none
  | some r => match s.heap[r]? with
    | none => none
    | some c => some { s with log := s.log ++ [c.id] }

mutual
/-- handlers under `_evaluate_graph_sync` (runtime/interpreter.py:931-1015); the flag is false when an exception was raised.
`base` = `self.comm_ctx` (a reference). -/
def actsS (base : Option Nat) : Acts → St → St × Bool
  | .nil, s => (s, true)
  | .talk a, s => match say s with
    | none => (s, false)
    | some s1 => actsS base a s1
  | .fail, s => (s, false)
  | .eval _ ops a, s =>
    let s1 := if s.tls = none then { s with tls := base } else s                 -- interpreter.py:940-942
    let r := opsS base ops s1
    if r.2 = false then r                                                          -- no `finally`
    else actsS base a (if s.tls = none then { r.1 with tls := none } else r.1)    -- interpreter.py:1006-1013
/-- the operations one after the other (runtime/interpreter.py:947-999) -/
def opsS (base : Option Nat) : Ops → St → St × Bool
  | .nil, s => (s, true)
  | .cons _ a rest, s =>
    let r := actsS base a s
    if r.2 = false then r else opsS base rest r.1
end

/-- `root_comm_ctx.spawn(suffix=…)` on the object `r` (runtime/interpreter.py:1138-1141, comm_context.py:65-85) -/
def spawnAt (r : Nat) (suffix : String) (s : St) : St :=
  match s.heap[r]? with
  | none => s
  | some c => { s with heap := s.heap.set r (c.spawn (some suffix)).1 ++ [(c.spawn (some suffix)).2], tls := some s.heap.length }

mutual
/-- handlers under `_evaluate_graph_async` (runtime/interpreter.py:1017-1215) -/
def actsA (base : Option Nat) : Acts → St → St × Bool
  | .nil, s => (s, true)
  | .talk a, s => match say s with
    | none => (s, false)
    | some s1 => actsA base a s1
  | .fail, s => (s, false)
  | .eval key ops a, s =>
    let root := if s.tls = none then base else s.tls                               -- interpreter.py:1025
    let r := opsA base root key ops s
    if r.2 = false then r else actsA base a r.1                                   -- the variable is not restored
/-- every operation gets a child scope and leaves it in the thread-local variable (runtime/interpreter.py:1137-1188); operations
already queued still run after a failure -/
def opsA (base root : Option Nat) (key : String) : Ops → St → St × Bool
  | .nil, s => (s, true)
  | .cons idx a rest, s =>
    let s1 := match root with
      | none => s
      | some r => spawnAt r (key ++ "." ++ idx.repr) s
    let r := actsA base a s1
    let q := opsA base root key rest r.1
    (q.1, r.2 && q.2)
end

/-- a sequence of evaluations on one thread by one interpreter, each of which may have failed -/
def history (step : Acts → St → St × Bool) : List Acts → St → St
  | [], s => s
  | a :: as, s => history step as (step a s).1

/-- the state of a fresh request interpreter with context id `job` (backends/simp_worker/request.py:47-62) -/
def fresh (job : String) : St := ⟨[⟨job, 0⟩], none, []⟩

/-! ## Sequential evaluation -/

/-- the invariant: only the request's own context exists and the variable is unset or refers to it; every message so far was
in the request's scope -/
def Own (job : String) (s : St) : Prop :=
  s.heap = [⟨job, 0⟩] ∧ (s.tls = none ∨ s.tls = some 0) ∧ ∀ x ∈ s.log, x = job

theorem say_own {job : String} {s s1 : St} (h : Own job s) (e : say s = some s1) : Own job s1 ∧ s1.tls = s.tls := by
  obtain ⟨h1, h2, h3⟩ := h
  unfold say at e
  rcases h2 with h2 | h2
  · rw [h2] at e; cases e
  · rw [h2] at e
    simp only [h1, List.getElem?_cons_zero, Option.some.injEq] at e
    subst e
    refine ⟨⟨rfl, Or.inr rfl, ?_⟩, h2.symm⟩
    intro x hx
    simp only [List.mem_append, List.mem_singleton] at hx
    rcases hx with hx | hx
    · exact h3 x hx
    · exact hx

mutual
theorem actsS_own {job : String} : (a : Acts) → (s : St) → Own job s →
    Own job (actsS (some 0) a s).1 ∧ ((actsS (some 0) a s).2 = true → (actsS (some 0) a s).1.tls = s.tls)
  | .nil, s, h => by unfold actsS; exact ⟨h, fun _ => rfl⟩
  | .fail, s, h => by simp only [actsS]; exact ⟨h, fun e => by cases e⟩
  | .talk a, s, h => by
    cases e : say s with
    | none => simp only [actsS, e]; exact ⟨h, fun e => by cases e⟩
    | some s1 =>
      obtain ⟨h1, ht⟩ := say_own h e
      simp only [actsS, e]
      have := actsS_own a s1 h1
      rw [ht] at this
      exact this
  | .eval key ops a, s, h => by
    by_cases hn : s.tls = none
    · have h1 : Own job { s with tls := some 0 } := ⟨h.1, Or.inr rfl, h.2.2⟩
      have h2 := opsS_own ops { s with tls := some 0 } h1
      simp only [actsS, hn, if_true]
      by_cases hf : (opsS (some 0) ops { s with tls := some 0 }).2 = false
      · rw [if_pos hf]
        exact ⟨h2.1, fun e => by rw [hf] at e; cases e⟩
      · rw [if_neg hf]
        exact actsS_own a { (opsS (some 0) ops { s with tls := some 0 }).1 with tls := none } ⟨h2.1.1, Or.inl rfl, h2.1.2.2⟩
    · have h2 := opsS_own ops s h
      simp only [actsS, if_neg hn]
      by_cases hf : (opsS (some 0) ops s).2 = false
      · rw [if_pos hf]
        exact ⟨h2.1, fun e => by rw [hf] at e; cases e⟩
      · rw [if_neg hf]
        have h3 := actsS_own a (opsS (some 0) ops s).1 h2.1
        rw [h2.2 (by simpa using hf)] at h3
        exact h3
theorem opsS_own {job : String} : (o : Ops) → (s : St) → Own job s →
    Own job (opsS (some 0) o s).1 ∧ ((opsS (some 0) o s).2 = true → (opsS (some 0) o s).1.tls = s.tls)
  | .nil, s, h => by unfold opsS; exact ⟨h, fun _ => rfl⟩
  | .cons _ a rest, s, h => by
    have h1 := actsS_own a s h
    simp only [opsS]
    by_cases hf : (actsS (some 0) a s).2 = false
    · rw [if_pos hf]
      exact ⟨h1.1, fun e => by rw [hf] at e; cases e⟩
    · rw [if_neg hf]
      have h2 := opsS_own rest (actsS (some 0) a s).1 h1.1
      rw [h1.2 (by simpa using hf)] at h2
      exact h2
end

theorem history_own {job : String} (es : List Acts) (s : St) (h : Own job s) : Own job (history (actsS (some 0)) es s) := by
  induction es generalizing s with
  | nil => exact h
  | cons a es ih => exact ih _ (actsS_own a s h).1

mutual
/-- number of messages of handlers none of which fails -/
def talks : Acts → Nat
  | .nil => 0
  | .talk a => talks a + 1
  | .eval _ o a => talksO o + talks a
  | .fail => 0
/-- see `talks` -/
def talksO : Ops → Nat
  | .nil => 0
  | .cons _ a r => talks a + talksO r
end

mutual
/-- no handler raises, and none communicates outside of an evaluation (`inside` = within one) -/
def calm (inside : Bool) : Acts → Bool
  | .nil => true
  | .talk a => inside && calm inside a
  | .eval _ o a => calmO o && calm inside a
  | .fail => false
/-- see `calm` -/
def calmO : Ops → Bool
  | .nil => true
  | .cons _ a r => calm true a && calmO r
end

mutual
theorem actsS_log {job : String} : (a : Acts) → (s : St) → Own job s → calm (s.tls != none) a = true →
    (actsS (some 0) a s).2 = true ∧ (actsS (some 0) a s).1.log = s.log ++ List.replicate (talks a) job
  | .nil, s, h, _ => by simp [actsS, talks]
  | .fail, s, h, hc => by simp [calm] at hc
  | .talk a, s, h, hc => by
    simp only [calm, Bool.and_eq_true] at hc
    obtain ⟨h1, h2, h3⟩ := h
    have h2 : s.tls = some 0 := by rcases h2 with h2 | h2 <;> simp_all
    have e : say s = some { s with log := s.log ++ [job] } := by simp [say, h2, h1]
    have ho : Own job { s with log := s.log ++ [job] } := (say_own ⟨h1, Or.inr h2, h3⟩ e).1
    simp only [actsS, e, talks]
    have ih := actsS_log a { s with log := s.log ++ [job] } ho hc.2
    refine ⟨ih.1, ?_⟩
    rw [ih.2]
    simp [List.replicate_succ]
  | .eval key ops a, s, h, hc => by
    simp only [calm, Bool.and_eq_true] at hc
    by_cases hn : s.tls = none
    · have h1 : Own job { s with tls := some 0 } := ⟨h.1, Or.inr rfl, h.2.2⟩
      have h2 := opsS_log ops { s with tls := some 0 } h1 rfl hc.1
      have h2' := opsS_own ops { s with tls := some 0 } h1
      simp only [actsS, hn, if_true, h2.1, talks]
      rw [if_neg (by simp)]
      have h3 := actsS_log a { (opsS (some 0) ops { s with tls := some 0 }).1 with tls := none } ⟨h2'.1.1, Or.inl rfl, h2'.1.2.2⟩
        (by rw [hn] at hc; exact hc.2)
      refine ⟨h3.1, ?_⟩
      rw [h3.2]
      show (opsS (some 0) ops { s with tls := some 0 }).1.log ++ _ = _
      rw [h2.2]
      simp [List.replicate_append_replicate]
    · have hs : s.tls = some 0 := by rcases h.2.1 with h | h <;> simp_all
      have h2 := opsS_log ops s h hs hc.1
      have h2' := opsS_own ops s h
      simp only [actsS, if_neg hn, h2.1, talks]
      rw [if_neg (by simp)]
      have h3 := actsS_log a (opsS (some 0) ops s).1 h2'.1 (by rw [h2'.2 h2.1]; exact hc.2)
      refine ⟨h3.1, ?_⟩
      rw [h3.2, h2.2]
      simp [List.replicate_append_replicate]
theorem opsS_log {job : String} : (o : Ops) → (s : St) → Own job s → s.tls = some 0 → calmO o = true →
    (opsS (some 0) o s).2 = true ∧ (opsS (some 0) o s).1.log = s.log ++ List.replicate (talksO o) job
  | .nil, s, h, _, _ => by simp [opsS, talksO]
  | .cons _ a rest, s, h, hs, hc => by
    simp only [calmO, Bool.and_eq_true] at hc
    have h1 := actsS_log a s h (by rw [hs]; exact hc.1)
    have h1' := actsS_own a s h
    simp only [opsS, h1.1, talksO]
    rw [if_neg (by simp)]
    have h2 := opsS_log rest (actsS (some 0) a s).1 h1'.1 (by rw [h1'.2 h1.1, hs]) hc.2
    refine ⟨h2.1, ?_⟩
    rw [h2.2, h1.2]
    simp [List.replicate_append_replicate]
end

/-- **C109** Sequential evaluation: after any history of evaluations of any nesting, failed or not, every message of the request
was sent in the request's own scope; and an evaluation in which nothing raises sends each of its messages in that scope and
leaves the thread as it found it. -/
theorem one_scope (job : String) (before : List Acts) (key : String) (ops : Ops) :
    (∀ x ∈ (history (actsS (some 0)) before (fresh job)).log, x = job) ∧
    (calmO ops = true →
      let s := history (actsS (some 0)) before (fresh job)
      let r := actsS (some 0) (.eval key ops .nil) s
      r.2 = true ∧ r.1.log = s.log ++ List.replicate (talksO ops) job ∧ r.1.tls = s.tls) := by
  have h0 : Own job (fresh job) := ⟨rfl, Or.inl rfl, by simp [fresh]⟩
  have h := history_own before (fresh job) h0
  refine ⟨h.2.2, fun hc => ?_⟩
  have h1 := actsS_log (.eval key ops .nil) (history (actsS (some 0)) before (fresh job)) h (by simp [calm, hc])
  have h2 := actsS_own (.eval key ops .nil) (history (actsS (some 0)) before (fresh job)) h
  refine ⟨h1.1, ?_, h2.2 h1.1⟩
  rw [h1.2]
  simp [talks]

/-- **C109 violated** (documentation of `current_comm_ctx`) After a failed evaluation the thread keeps the scope: a call outside
of any evaluation, which should raise, succeeds. -/
theorem outside_violated (job : String) :
    say (fresh job) = none ∧
    (say (actsS (some 0) (.eval "k" (.cons 0 .fail .nil) .nil) (fresh job)).1).isSome = true := by
  refine ⟨rfl, ?_⟩
  simp [actsS, opsS, fresh, say]

/-! ## Asynchronous evaluation -/

mutual
/-- the scopes an operation with scope `id` uses when it communicates in its own scope and its nested graph (at most one, after
which it does nothing more) gets scopes below it -/
def namesActs (id : String) : Acts → List String
  | .nil => []
  | .talk a => id :: namesActs id a
  | .eval key ops _ => namesOps id key 0 ops
  | .fail => []
/-- operation number `n` to be started gets the scope `<root>.<n>.<key>.<index>` -/
def namesOps (root key : String) (n : Nat) : Ops → List String
  | .nil => []
  | .cons idx a rest => namesActs (childId root n (some (key ++ "." ++ idx.repr))) a ++ namesOps root key (n + 1) rest
end

mutual
/-- a handler communicates first and then evaluates at most one graph, in tail position (calls and conditionals; not loops) -/
def tidy : Acts → Bool
  | .nil => true
  | .talk a => tidy a
  | .eval _ o .nil => tidyO o
  | .eval .. => false
  | .fail => true
/-- see `tidy` -/
def tidyO : Ops → Bool
  | .nil => true
  | .cons _ a r => tidy a && tidyO r
end

/-- contexts other than `r` that existed before are unchanged -/
def Frame (r : Nat) (s t : St) : Prop :=
  s.heap.length ≤ t.heap.length ∧ ∀ i, i < s.heap.length → i ≠ r → t.heap[i]? = s.heap[i]?

theorem spawnAt_get {r : Nat} {suffix : String} {s : St} {c : CommCtx} (h : s.heap[r]? = some c) :
    let t := spawnAt r suffix s
    t.heap[r]? = some ⟨c.id, c.spawned + 1⟩ ∧ t.heap[s.heap.length]? = some ⟨childId c.id c.spawned (some suffix), 0⟩ ∧
      t.heap.length = s.heap.length + 1 ∧ t.tls = some s.heap.length ∧ t.log = s.log ∧ Frame r s t := by
  have hr : r < s.heap.length := (List.getElem?_eq_some_iff.mp h).1
  simp only [spawnAt, h, CommCtx.spawn]
  refine ⟨?_, ?_, ?_, trivial, trivial, ?_, ?_⟩
  · rw [List.getElem?_append_left (by simpa using hr)]
    simp [hr]
  · rw [List.getElem?_append_right (by simp)]
    simp
  · simp
  · simp
  · intro i hi hne
    simp only
    rw [List.getElem?_append_left (by simpa using hi)]
    rw [List.getElem?_set_ne (fun e => hne e.symm)]

mutual
theorem actsA_names : (a : Acts) → (s : St) → (r : Nat) → (id : String) → tidy a = true → s.tls = some r →
    s.heap[r]? = some ⟨id, 0⟩ →
    (actsA (some 0) a s).1.log = s.log ++ namesActs id a ∧ Frame r s (actsA (some 0) a s).1
  | .nil, s, r, id, _, _, _ => by simp [actsA, namesActs, Frame]
  | .fail, s, r, id, _, _, _ => by simp [actsA, namesActs, Frame]
  | .talk a, s, r, id, ht, hs, hc => by
    have e : say s = some { s with log := s.log ++ [id] } := by simp [say, hs, hc]
    simp only [tidy] at ht
    have ih := actsA_names a { s with log := s.log ++ [id] } r id ht hs hc
    simp only [actsA, e, namesActs]
    refine ⟨?_, ih.2⟩
    rw [ih.1]
    simp
  | .eval key ops .nil, s, r, id, ht, hs, hc => by
    simp only [tidy] at ht
    have ih := opsA_names ops s r id key 0 ht hc
    have e : (if s.tls = none then some 0 else s.tls) = some r := by rw [hs, if_neg (by simp)]
    unfold actsA
    simp only [e, namesActs]
    by_cases hf : (opsA (some 0) (some r) key ops s).2 = false
    · rw [if_pos hf]; exact ih
    · rw [if_neg hf]; unfold actsA; exact ih
  | .eval _ _ (.talk _), _, _, _, ht, _, _ => by simp [tidy] at ht
  | .eval _ _ (.eval ..), _, _, _, ht, _, _ => by simp [tidy] at ht
  | .eval _ _ .fail, _, _, _, ht, _, _ => by simp [tidy] at ht
theorem opsA_names : (o : Ops) → (s : St) → (r : Nat) → (id key : String) → (n : Nat) → tidyO o = true →
    s.heap[r]? = some ⟨id, n⟩ →
    (opsA (some 0) (some r) key o s).1.log = s.log ++ namesOps id key n o ∧ Frame r s (opsA (some 0) (some r) key o s).1
  | .nil, s, r, id, key, n, _, _ => by simp [opsA, namesOps, Frame]
  | .cons idx a rest, s, r, id, key, n, ht, hc => by
    simp only [tidyO, Bool.and_eq_true] at ht
    have hr : r < s.heap.length := (List.getElem?_eq_some_iff.mp hc).1
    obtain ⟨g1, g2, g3, g4, g5, g6⟩ := spawnAt_get (suffix := key ++ "." ++ idx.repr) hc
    have i1 := actsA_names a _ _ _ ht.1 g4 g2
    have hk : (actsA (some 0) a (spawnAt r (key ++ "." ++ idx.repr) s)).1.heap[r]? = some ⟨id, n + 1⟩ := by
      rw [i1.2.2 r (by rw [g3]; omega) (by omega), g1]
    have i2 := opsA_names rest _ r id key (n + 1) ht.2 hk
    simp only [opsA, namesOps]
    refine ⟨?_, ?_, ?_⟩
    · rw [i2.1, i1.1, g5]
      simp
    · have := i1.2.1
      have := i2.2.1
      omega
    · intro i hi hne
      rw [i2.2.2 i (by have := i1.2.1; omega) hne, i1.2.2 i (by omega) (by omega), g6.2 i hi hne]
end

/-- **C109** (proved part: asynchronous evaluation) If handlers communicate before they evaluate a nested graph and evaluate at
most one, the scope of every message depends only on the positions, in start order, of the operations around it — not on what
other operations did: the messages of the operations of a graph are, operation by operation, those of `namesActs` in the scope
`<job>.<position>.<key>.<index>`.  So parties that start the operations in the same order talk in the same scopes even if some
of them skip the bodies of calls.  Missing: loops, see `loop_scopes_violated`; other orders, see C24. -/
theorem scope_by_position_partial (job key : String) (ops : Ops) (h : tidyO ops = true) :
    (actsA (some 0) (.eval key ops .nil) (fresh job)).1.log = namesOps job key 0 ops := by
  have h1 := (opsA_names ops (fresh job) 0 job key 0 h rfl).1
  simp only [actsA, fresh, if_true]
  simp only [fresh] at h1
  split <;> simpa using h1

/-! ### Loops -/

/-- two iterations of a loop whose body is an exchange followed by a call on some parties only, as the handler of a member
of the call does it (ops.py:144-173) -/
def member (kb kc kp : String) : Acts :=
  .eval kc (.cons 0 .nil .nil) <| .eval kb (.cons 0 (.talk .nil) (.cons 1 (.eval kp (.cons 0 .nil .nil) .nil) .nil)) <|
  .eval kc (.cons 0 .nil .nil) <| .eval kb (.cons 0 (.talk .nil) (.cons 1 (.eval kp (.cons 0 .nil .nil) .nil) .nil)) <|
  .eval kc (.cons 0 .nil .nil) .nil

/-- the same loop on a party outside of the call (ops.py:64-70) -/
def other (kb kc : String) : Acts :=
  .eval kc (.cons 0 .nil .nil) <| .eval kb (.cons 0 (.talk .nil) (.cons 1 .nil .nil)) <|
  .eval kc (.cons 0 .nil .nil) <| .eval kb (.cons 0 (.talk .nil) (.cons 1 .nil .nil)) <|
  .eval kc (.cons 0 .nil .nil) .nil

/-- **C109 violated** With an executor, a loop whose body exchanges a value and then calls a function on one of the two parties:
the exchange of the first iteration happens in the same scope on both, the one of the second iteration in different scopes,
for all graphs and keys — so the message keys differ and the receive never completes.  (The scope left behind by the body of
the call is taken as the root of the next evaluation.)  In sequential evaluation both exchanges use the same scope. -/
theorem loop_scopes_violated (job kw kb kc kp : String) :
    let run := fun a => (actsA (some 0) (.eval kw (.cons 0 a .nil) .nil) (fresh job)).1.log
    let seq := fun a => (actsS (some 0) (.eval kw (.cons 0 a .nil) .nil) (fresh job)).1.log
    (∃ x y z, run (member kb kc kp) = [x, y] ∧ run (other kb kc) = [x, z] ∧ y ≠ z ∧ ∀ m n, msgKey y m ≠ msgKey z n) ∧
    seq (member kb kc kp) = [job, job] ∧ seq (other kb kc) = [job, job] := by
  intro run seq
  refine ⟨?_, ?_, ?_⟩
  · let nm := fun (id : String) (n : Nat) (key : String) (idx : Nat) => childId id n (some (key ++ "." ++ idx.repr))
    let c := nm (nm job 0 kw 0) 0 kc 0
    have hne : nm (nm (nm (nm c 1 kb 1) 0 kp 0) 0 kc 0) 0 kb 0 ≠ nm (nm (nm c 1 kb 1) 0 kc 0) 0 kb 0 := by
      intro e
      have := congrArg String.length e
      simp only [nm, childId, String.length_append] at this
      have hd : (".".length : Nat) = 1 := rfl
      omega
    refine ⟨nm c 0 kb 0, nm (nm (nm (nm c 1 kb 1) 0 kp 0) 0 kc 0) 0 kb 0, nm (nm (nm c 1 kb 1) 0 kc 0) 0 kb 0, ?_, ?_, hne,
      fun m n e => hne (key_injective e).1⟩
    · simp [run, member, actsA, opsA, fresh, say, spawnAt, CommCtx.spawn, c, nm]
    · simp [run, other, actsA, opsA, fresh, say, spawnAt, CommCtx.spawn, c, nm]
  · simp [seq, member, actsS, opsS, fresh, say]
  · simp [seq, other, actsS, opsS, fresh, say]

/-! Non-vacuity: a conditional (agreement check, then the branch with an exchange inside), after an evaluation that failed; and
the same under the asynchronous evaluator, where a party outside of a call uses the same scope for the exchange after it. -/
example : (actsS (some 0) (.eval "g" (.cons 0 (.talk (.eval "then" (.cons 0 (.talk .nil) .nil) .nil)) .nil) .nil)
    (history (actsS (some 0)) [.eval "f" (.cons 0 (.talk .fail) .nil) .nil] (fresh "job"))).1.log = ["job", "job", "job"] := by
  decide
example : calmO (.cons 0 (.talk (.eval "then" (.cons 0 (.talk .nil) .nil) .nil)) .nil) = true := by decide
example :
    (actsA (some 0) (.eval "g" (.cons 0 (.eval "f" (.cons 0 .nil .nil) .nil) (.cons 1 (.talk .nil) .nil)) .nil) (fresh "job")).1.log
      = ["job.1.g.1"] ∧
    (actsA (some 0) (.eval "g" (.cons 0 .nil (.cons 1 (.talk .nil) .nil)) .nil) (fresh "job")).1.log = ["job.1.g.1"] ∧
    tidyO (.cons 0 (.eval "f" (.cons 0 .nil .nil) .nil) (.cons 1 (.talk .nil) .nil)) = true := by decide +kernel

mutual
/-- nothing raises: no action fails, neither here nor in a nested evaluation -/
def clean : Acts → Bool
  | .nil => true
  | .talk a => clean a
  | .eval _ o a => cleanO o && clean a
  | .fail => false
/-- no operation fails -/
def cleanO : Ops → Bool
  | .nil => true
  | .cons _ a r => clean a && cleanO r
end

/-- the variable refers to an existing context -/
def Live (s : St) : Prop := ∃ r, s.tls = some r ∧ r < s.heap.length

theorem say_live {s : St} (h : Live s) : ∃ s1, say s = some s1 ∧ Live s1 ∧ s1.heap.length = s.heap.length := by
  obtain ⟨r, h1, h2⟩ := h
  have : s.heap[r]? = some s.heap[r] := List.getElem?_eq_getElem h2
  exact ⟨{ s with log := s.log ++ [s.heap[r].id] }, by simp [say, h1, this], ⟨r, h1, h2⟩, rfl⟩

theorem spawnAt_live {r : Nat} {suffix : String} {s : St} (h : r < s.heap.length) :
    Live (spawnAt r suffix s) ∧ s.heap.length ≤ (spawnAt r suffix s).heap.length := by
  have : s.heap[r]? = some s.heap[r] := List.getElem?_eq_getElem h
  simp only [spawnAt, this]
  refine ⟨⟨s.heap.length, rfl, by simp⟩, by simp⟩

mutual
theorem actsA_fails (base : Option Nat) : (a : Acts) → (s : St) → Live s →
    (actsA base a s).2 = clean a ∧ Live (actsA base a s).1 ∧ s.heap.length ≤ (actsA base a s).1.heap.length
  | .nil, s, h => by simp [actsA, clean, h]
  | .talk a, s, h => by
    obtain ⟨s1, h1, h2, h3⟩ := say_live h
    have := actsA_fails base a s1 h2
    simp only [actsA, h1, clean]
    exact ⟨this.1, this.2.1, h3 ▸ this.2.2⟩
  | .fail, s, h => by simp [actsA, clean, h]
  | .eval key ops a, s, h => by
    obtain ⟨r, h1, h2⟩ := h
    have ho := opsA_fails base r key ops s ⟨r, h1, h2⟩ h2
    simp only [actsA, h1, clean]
    simp only [reduceCtorEq, if_false]
    by_cases hf : (opsA base (some r) key ops s).2 = false
    · rw [if_pos hf, ← ho.1, hf]
      exact ⟨by simp, ho.2⟩
    · rw [if_neg hf, ← ho.1]
      have := actsA_fails base a (opsA base (some r) key ops s).1 ho.2.1
      refine ⟨by simp [this.1, Bool.eq_true_of_not_eq_false hf], this.2.1, Nat.le_trans ho.2.2 this.2.2⟩
theorem opsA_fails (base : Option Nat) (root : Nat) (key : String) : (o : Ops) → (s : St) → Live s → root < s.heap.length →
    (opsA base (some root) key o s).2 = cleanO o ∧ Live (opsA base (some root) key o s).1 ∧
      s.heap.length ≤ (opsA base (some root) key o s).1.heap.length
  | .nil, s, h, _ => by simp [opsA, cleanO, h]
  | .cons idx a rest, s, h, hr => by
    have h1 := spawnAt_live (suffix := key ++ "." ++ idx.repr) hr
    have h2 := actsA_fails base a _ h1.1
    have h3 := opsA_fails base root key rest _ h2.2.1 (by omega)
    simp only [opsA, cleanO]
    exact ⟨by rw [h2.1, h3.1], h3.2.1, by omega⟩
end

/-- **C109** Asynchronous evaluation reports a failure exactly when one of its operations, at any depth, fails: a failed operation
is not lost because others of the same graph succeed. -/
theorem async_failure_reported (job key : String) (ops : Ops) :
    (actsA (some 0) (.eval key ops .nil) (fresh job)).2 = cleanO ops := by
  have hl : (0 : Nat) < (fresh job).heap.length := by simp [fresh]
  cases ops with
  | nil => simp [actsA, opsA, fresh, cleanO]
  | cons idx a rest =>
    have h1 := spawnAt_live (suffix := key ++ "." ++ idx.repr) hl
    have h2 := actsA_fails (some 0) a _ h1.1
    have h3 := opsA_fails (some 0) 0 key rest _ h2.2.1 (by omega)
    have ht : (fresh job).tls = none := rfl
    simp only [actsA, ht, if_true, opsA, cleanO]
    rw [h2.1, h3.1]
    by_cases hf : (clean a && cleanO rest) = false
    · rw [if_pos hf, hf]
    · rw [if_neg hf, Bool.eq_true_of_not_eq_false hf]

example : (actsA (some 0) (.eval "g" (.cons 0 (.eval "h" (.cons 0 .fail .nil) .nil) (.cons 1 (.talk .nil) .nil)) .nil) (fresh "j")).2 = false :=
  (async_failure_reported ..).trans (by decide)

end Verif.Interp.Scopes
