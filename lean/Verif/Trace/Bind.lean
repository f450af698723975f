import Verif.Store.Model
import Mathlib.Algebra.Order.Ring.Rat
import Mathlib.Tactic.Linarith
import Mathlib.Algebra.Order.BigOperators.Group.List
/-!
# C110 — what a primitive call records, and which implementation runs it

`Primitive.bind` under a tracer (edsl/primitive.py:199-243, edsl/tracer.py:109-171) and the dispatch of an operation to its
implementation (edsl/registry.py:162-207, runtime/interpreter.py:966-984, 1117-1125).
-/
namespace Verif.Trace.Bind
open Verif.Store (lookup assign)

/-- what goes wrong -/
inductive Err where
  | type | runtime | notImplemented | rule | handler
  deriving DecidableEq, Repr

/-- an argument after lifting: a trace object (its graph value) or anything else -/
inductive Val (A : Type) where
  | obj (v : Nat)
  | const (a : A)
  deriving DecidableEq, Repr

/-- recorded operation (edsl/graph.py `Operation`) -/
structure GOp (A : Type) where
  opcode : String
  inputs : List Nat
  outputs : List Nat
  attrs : List (String × Val A)
  deriving DecidableEq, Repr

/-- the graph under construction: the types of its values (value `i` is the `i`-th created) and its operations -/
structure G (T A : Type) where
  types : List T
  ops : List (GOp A)
  deriving DecidableEq, Repr

/-- what a type rule returns: a `BaseType` or a sequence -/
inductive Out (T : Type) where
  | one (t : T)
  | seq (ts : List T)

/-- `isinstance(output_types, BaseType)` → `[t]`, otherwise `list(…)` (edsl/tracer.py:154-157) -/
def Out.list {T : Type} : Out T → List T
  | .one t => [t]
  | .seq ts => ts

/-- what a call returns: one object or a list of objects -/
inductive Ret where
  | one (v : Nat)
  | many (vs : List Nat)
  deriving DecidableEq, Repr

/-- a type rule: first parameter named `in_types` (takes the list), or positional with at least `lo` and at most `hi` inputs
(python signature; `none` = `*args`) (edsl/tracer.py:143-152) -/
inductive Rule (T A : Type) where
  | flat (f : List T → List (String × Val A) → Except Err (Out T))
  | pos (lo : Nat) (hi : Option Nat) (f : List T → List (String × Val A) → Except Err (Out T))

/-- calling the rule -/
def Rule.apply {T A : Type} : Rule T A → List T → List (String × Val A) → Except Err (Out T)
  | .flat f, ts, kw => f ts kw
  | .pos lo hi f, ts, kw =>
    if ts.length < lo then .error .type
    else match hi with
      | some h => if h < ts.length then .error .type else f ts kw
      | none => f ts kw

/-- `Primitive` (edsl/primitive.py:66-76): its rules, if defined.  A `def_trace` function may do anything. -/
structure Prim (T A : Type) where
  name : String
  rule : Option (Rule T A)
  trace : Option (G T A → List (Val A) → List (String × Val A) → Except Err (G T A × Ret))

/-- `[arg for arg in args if isinstance(arg, TraceObject)]` (edsl/tracer.py:139) -/
def objs {A : Type} (args : List (Val A)) : List Nat :=
  args.filterMap fun a => match a with | .obj v => some v | .const _ => none

/-- the values created next -/
def newVals {T A : Type} (s : G T A) (n : Nat) : List Nat := List.range' s.types.length n

/-- `outs[0] if len(outs) == 1 else outs` (edsl/tracer.py:166) -/
def ret : List Nat → Ret
  | [v] => .one v
  | vs => .many vs

/-- `Tracer.bind_primitive` (edsl/tracer.py:109-171) -/
def bind {T A : Type} (p : Prim T A) (s : G T A) (args : List (Val A)) (kw : List (String × Val A)) :
    Except Err (G T A × Ret) :=
  match p.trace with
  | some f => f s args kw
  | none => match p.rule with
    | none => .error .runtime
    | some r =>
      match (objs args).mapM fun v => s.types[v]? with
      | none => .error .runtime
      | some ts => match r.apply ts kw with
        | .error e => .error e
        | .ok o =>
          let outs := newVals s o.list.length
          .ok (⟨s.types ++ o.list, s.ops ++ [⟨p.name, objs args, outs, kw⟩]⟩, ret outs)

theorem objs_length {A : Type} (args : List (Val A)) :
    (objs args).length ≤ args.length ∧ ((objs args).length = args.length → args = (objs args).map Val.obj) := by
  induction args with
  | nil => simp [objs]
  | cons a as ih =>
    cases a with
    | const c =>
      have e : objs (Val.const c :: as) = objs as := rfl
      rw [e]
      refine ⟨by simp; omega, fun h => ?_⟩
      have := ih.1
      simp only [List.length_cons] at h
      omega
    | obj v =>
      have e : objs (Val.obj v :: as) = v :: objs as := rfl
      rw [e]
      refine ⟨by simp; exact ih.1, fun h => ?_⟩
      simp only [List.length_cons, Nat.add_right_cancel_iff] at h
      rw [List.map_cons, ← ih.2 h]

theorem objs_map {A : Type} (vs : List Nat) : objs (vs.map (Val.obj (A := A))) = vs := by
  induction vs with
  | nil => rfl
  | cons v vs ih =>
    have e : objs ((v :: vs).map (Val.obj (A := A))) = v :: objs (vs.map (Val.obj (A := A))) := rfl
    rw [e, ih]

theorem mapM_length {α β : Type} (f : α → Option β) (l : List α) {r : List β} (h : l.mapM f = some r) : r.length = l.length := by
  induction l generalizing r with
  | nil => simp only [List.mapM_nil, Option.pure_def, Option.some.injEq] at h; subst h; rfl
  | cons a l ih =>
    rw [List.mapM_cons] at h
    cases e1 : f a with
    | none => rw [e1] at h; cases h
    | some b => cases e2 : l.mapM f with
      | none => rw [e1, e2] at h; cases h
      | some bs =>
        rw [e1, e2] at h
        cases h
        simp [ih e2]

/-- **C110** A primitive whose type rule takes exactly `k` inputs, called with `k` arguments: the call is accepted exactly if all
of them are objects of the trace and the rule accepts their types and the keyword arguments; the one operation recorded has
exactly these inputs, in order, and the keyword arguments as attributes; its outputs are new values of the types the rule gave;
a single result is returned as such, otherwise the list. -/
theorem call_recorded {T A : Type} (p : Prim T A) (k : Nat) (f : List T → List (String × Val A) → Except Err (Out T))
    (hp : p.rule = some (.pos k (some k) f)) (ht : p.trace = none) (s : G T A) (args : List (Val A))
    (kw : List (String × Val A)) (hk : args.length = k) (s' : G T A) (r : Ret) :
    bind p s args kw = .ok (s', r) ↔
      ∃ vs ts o, args = vs.map Val.obj ∧ (vs.mapM fun v => s.types[v]?) = some ts ∧ f ts kw = .ok o ∧
        s' = ⟨s.types ++ o.list, s.ops ++ [⟨p.name, vs, List.range' s.types.length o.list.length, kw⟩]⟩ ∧
        (r = match List.range' s.types.length o.list.length with | [v] => .one v | vs => .many vs) := by
  unfold bind
  rw [ht, hp]
  simp only
  constructor
  · intro h
    split at h
    · cases h
    · rename_i ts hts
      have hl := mapM_length _ _ hts
      simp only [Rule.apply] at h
      by_cases h1 : ts.length < k
      · rw [if_pos h1] at h; cases h
      · rw [if_neg h1] at h
        by_cases h2 : k < ts.length
        · rw [if_pos h2] at h; cases h
        · rw [if_neg h2] at h
          cases ho : f ts kw with
          | error e => rw [ho] at h; cases h
          | ok o =>
            rw [ho] at h
            simp only [Except.ok.injEq, Prod.mk.injEq] at h
            refine ⟨objs args, ts, o, (objs_length args).2 (by omega), hts, ho, h.1.symm, ?_⟩
            rw [← h.2]
            rfl
  · rintro ⟨vs, ts, o, rfl, hts, ho, rfl, rfl⟩
    rw [objs_map, hts]
    have hl := mapM_length _ _ hts
    simp only [List.length_map] at hk
    simp only [Rule.apply]
    rw [if_neg (by omega), if_neg (by omega), ho]
    rfl

/-- **C110 violated** Arguments that are not objects disappear without a word when the rule takes any number of inputs (as in
`tensor.concat`, `simp.converge`, `table.write`, `spu.reconstruct`): the call does exactly what the call without them does, so
concatenating with a plain array records the concatenation of the rest. -/
theorem constants_dropped_violated {T A : Type} (p : Prim T A) (ht : p.trace = none) (s : G T A) (args : List (Val A))
    (kw : List (String × Val A)) :
    bind p s args kw = bind p s (args.filter fun a => match a with | .obj _ => true | .const _ => false) kw := by
  have e : objs args = objs (args.filter fun a => match a with | .obj _ => true | .const _ => false) := by
    induction args with
    | nil => rfl
    | cons a as ih =>
      cases a with
      | const c =>
        have e : objs (Val.const c :: as) = objs as := rfl
        rw [e, ih, List.filter_cons_of_neg (by simp)]
      | obj v =>
        rw [List.filter_cons_of_pos (by rfl)]
        have e : ∀ l : List (Val A), objs (Val.obj v :: l) = v :: objs l := fun _ => rfl
        rw [e, e, ih]
  unfold bind
  rw [ht, ← e]

/-- **C110** A `def_trace` function takes precedence over the type rule, and a primitive with neither is refused. -/
theorem precedence {T A : Type} (p : Prim T A) (s : G T A) (args : List (Val A)) (kw : List (String × Val A)) :
    (∀ f, p.trace = some f → bind p s args kw = f s args kw) ∧
    (p.trace = none → p.rule = none → bind p s args kw = .error .runtime) := by
  refine ⟨fun f h => ?_, fun h1 h2 => ?_⟩
  · unfold bind; rw [h]
  · unfold bind; rw [h1, h2]

/-- type of a vector of `n` numbers; the rule of `tensor.concat` for vectors (dialects/tensor.py:634-706, one axis) -/
def concatRule : List Nat → List (String × Val Int) → Except Err (Out Nat)
  | [], _ => .error .rule
  | ts, _ => .ok (.one ts.sum)

/-- `tensor.concat` on vectors -/
def concatP : Prim Nat Int := ⟨"tensor.concat", some (.flat concatRule), none⟩

/-- **C110 violated** `concat([x, [1, 2]])` records `concat([x])`; and an object given as keyword argument is recorded as an
attribute although `bind` promises a TypeError. -/
theorem concat_array_violated :
    bind concatP ⟨[3], []⟩ [.obj 0, .const 12] [("axis", .const 0)] =
      .ok (⟨[3, 3], [⟨"tensor.concat", [0], [1], [("axis", .const 0)]⟩]⟩, .one 1) ∧
    bind concatP ⟨[3], []⟩ [.obj 0] [("axis", .obj 0)] =
      .ok (⟨[3, 3], [⟨"tensor.concat", [0], [1], [("axis", .obj 0)]⟩]⟩, .one 1) := by
  constructor <;> rfl

/-! ## Dispatch -/

/-- an implementation: what it returns for its arguments, or an exception -/
abbrev Impl (V : Type) := List V → Except Err V

/-- `OpProfiler` (edsl/registry.py:36-66): enabled flag and samples per opcode -/
structure Profiler where
  enabled : Bool
  timings : List (String × List ℚ)

/-- the state involved in dispatch: global registry (edsl/registry.py:28, 162-170), profiler, and the interpreter's own handlers -/
structure Disp (V : Type) where
  registry : List (String × Impl V)
  prof : Profiler
  handlers : List (String × Impl V)

/-- `record` (edsl/registry.py:47-50) -/
def record (p : Profiler) (op : String) (d : ℚ) : Profiler :=
  if p.enabled then { p with timings := assign op ((lookup op p.timings).getD [] ++ [d]) p.timings } else p

/-- dispatch of one operation that takes time `d` (runtime/interpreter.py:966-984; edsl/registry.py:181-207) -/
def exec {V : Type} (s : Disp V) (op : String) (args : List V) (d : ℚ) : Disp V × Except Err V :=
  match lookup op s.handlers with
  | some h => (s, h args)
  | none => match lookup op s.registry with
    | none => (s, .error .notImplemented)
    | some fn =>
      if s.prof.enabled = false then (s, fn args)
      else match fn args with
        | .error e => (s, .error e)                       -- the exception leaves the wrapper before `record`
        | .ok v => ({ s with prof := record s.prof op d }, .ok v)

/-- what can happen to the process: registrations, profiling switched on and off, operations executed -/
inductive Event (V : Type) where
  | register (op : String) (f : Impl V)        -- edsl/registry.py:171-180, edsl/primitive.py:78-98
  | enable                                      -- edsl/registry.py:150-153
  | disable                                     -- edsl/registry.py:156-158
  | exec (op : String) (args : List V) (d : ℚ)

/-- one event; the result of an executed operation is noted -/
def step {V : Type} (s : Disp V) : Event V → Disp V × List (Except Err V)
  | .register op f => ({ s with registry := assign op f s.registry }, [])
  | .enable => ({ s with prof := ⟨true, []⟩ }, [])
  | .disable => ({ s with prof := { s.prof with enabled := false } }, [])
  | .exec op args d => let r := exec s op args d; (r.1, [r.2])

/-- a history of events -/
def runAll {V : Type} (s : Disp V) : List (Event V) → Disp V × List (Except Err V)
  | [] => (s, [])
  | e :: es => let r := step s e; let q := runAll r.1 es; (q.1, r.2 ++ q.2)

/-- specification: the implementation registered last -/
def latest {V : Type} (op : String) : List (Event V) → Option (Impl V)
  | [] => none
  | e :: es => match latest op es with
    | some f => some f
    | none => match e with
      | .register o f => if o = op then some f else none
      | _ => none

theorem exec_keeps {V : Type} (s : Disp V) (op : String) (args : List V) (d : ℚ) :
    (exec s op args d).1.registry = s.registry ∧ (exec s op args d).1.handlers = s.handlers := by
  unfold exec
  split
  · exact ⟨rfl, rfl⟩
  · split
    · exact ⟨rfl, rfl⟩
    · split
      · exact ⟨rfl, rfl⟩
      · split <;> exact ⟨rfl, rfl⟩

theorem lookup_assign {β : Type} (l : List (String × β)) (a b : String) (v : β) :
    lookup b (assign a v l) = if a = b then some v else lookup b l := by
  induction l with
  | nil => simp [assign, lookup]
  | cons x l ih =>
    obtain ⟨c, w⟩ := x
    by_cases hc : c = a
    · subst hc
      simp only [assign, if_true, lookup]
      split <;> rfl
    · simp only [assign, if_neg hc, lookup, ih]
      by_cases hcb : c = b
      · subst hcb
        simp [Ne.symm (a := c) hc, hc, eq_comm]
      · simp only [if_neg hcb]

theorem run_registry {V : Type} (es : List (Event V)) (s : Disp V) (op : String) :
    lookup op (runAll s es).1.registry = (latest op es).or (lookup op s.registry) ∧ (runAll s es).1.handlers = s.handlers := by
  induction es generalizing s with
  | nil => simp [runAll, latest]
  | cons e es ih =>
    have h := ih (step s e).1
    simp only [runAll]
    rw [h.1, h.2]
    simp only [latest]
    cases e with
    | register o f =>
      simp only [step, lookup_assign]
      cases latest op es <;> simp
      split <;> rfl
    | enable => simp only [step]; cases latest op es <;> simp
    | disable => simp only [step]; cases latest op es <;> simp
    | exec o args d =>
      simp only [step, (exec_keeps s o args d).1, (exec_keeps s o args d).2]
      cases latest op es <;> simp

/-- the result of dispatch does not depend on the profiler -/
theorem exec_result {V : Type} (s : Disp V) (op : String) (args : List V) (d : ℚ) :
    (exec s op args d).2 = match lookup op s.handlers with
      | some h => h args
      | none => match lookup op s.registry with
        | none => .error .notImplemented
        | some f => f args := by
  unfold exec
  cases lookup op s.handlers with
  | some h => rfl
  | none =>
    cases lookup op s.registry with
    | none => rfl
    | some f =>
      simp only
      split
      · rfl
      · split <;> simp_all

/-- **C110** Whatever was registered, executed and profiled before: an operation is run by the interpreter's own handler if it has
one for the opcode, otherwise by the implementation registered last for it, otherwise it is refused with NotImplementedError. -/
theorem dispatch_latest {V : Type} (before : List (Event V)) (handlers : List (String × Impl V)) (op : String) (args : List V)
    (d : ℚ) :
    (exec (runAll ⟨[], ⟨false, []⟩, handlers⟩ before).1 op args d).2 =
      match lookup op handlers, latest op before with
      | some h, _ => h args
      | none, some f => f args
      | none, none => .error .notImplemented := by
  rw [exec_result, (run_registry before _ op).1, (run_registry before _ op).2]
  simp only [lookup, Option.or_none]
  cases lookup op handlers <;> cases latest op before <;> rfl

/-- is the event a registration or an executed operation? -/
def work {V : Type} : Event V → Bool
  | .enable => false
  | .disable => false
  | _ => true

theorem runAll_agree {V : Type} (es : List (Event V)) (s t : Disp V) (h1 : s.registry = t.registry) (h2 : s.handlers = t.handlers) :
    (runAll s es).2 = (runAll t (es.filter work)).2 := by
  induction es generalizing s t with
  | nil => rfl
  | cons e es ih =>
    cases e with
    | enable =>
      have := ih { s with prof := ⟨true, []⟩ } t h1 h2
      simpa [runAll, step, work] using this
    | disable =>
      have := ih { s with prof := { s.prof with enabled := false } } t h1 h2
      simpa [runAll, step, work] using this
    | register op f =>
      have := ih { s with registry := assign op f s.registry } { t with registry := assign op f t.registry } (by rw [h1]) h2
      rw [List.filter_cons_of_pos rfl]
      simpa [runAll, step] using this
    | exec op args d =>
      have := ih (exec s op args d).1 (exec t op args d).1 (by rw [(exec_keeps s op args d).1, (exec_keeps t op args d).1, h1])
        (by rw [(exec_keeps s op args d).2, (exec_keeps t op args d).2, h2])
      rw [List.filter_cons_of_pos rfl]
      simp only [runAll, step]
      rw [this, exec_result, exec_result, h1, h2]

/-- **C110** Profiling is transparent: switching it on and off at any time changes no result. -/
theorem profiling_transparent {V : Type} (es : List (Event V)) (s : Disp V) :
    (runAll s es).2 = (runAll s (es.filter work)).2 := runAll_agree es s s rfl rfl

/-- specification: durations of the operations `op` in `es` that returned a value, in order (the registry as it is at that point) -/
def samples {V : Type} (op : String) (reg : List (String × Impl V)) : List (Event V) → List ℚ
  | [] => []
  | .register o f :: es => samples op (assign o f reg) es
  | .exec o args d :: es =>
    (if o = op ∧ (match lookup op reg with | some f => (match f args with | .ok _ => true | .error _ => false) | none => false) = true
      then [d] else []) ++ samples op reg es
  | _ :: es => samples op reg es

theorem samples_run {V : Type} (op : String) (es : List (Event V)) (hw : ∀ e ∈ es, work e = true) (s : Disp V)
    (he : s.prof.enabled = true) (hh : lookup op s.handlers = none) :
    (lookup op (runAll s es).1.prof.timings).getD [] = (lookup op s.prof.timings).getD [] ++ samples op s.registry es := by
  induction es generalizing s with
  | nil => simp [runAll, samples]
  | cons e es ih =>
    have hw' : ∀ e ∈ es, work e = true := fun e h => hw e (List.mem_cons_of_mem _ h)
    cases e with
    | enable => have := hw .enable (by simp); cases this
    | disable => have := hw .disable (by simp); cases this
    | register o f =>
      simp only [runAll, step, samples]
      exact ih hw' { s with registry := assign o f s.registry } he hh
    | exec o args d =>
      simp only [runAll, step, samples]
      have hk := exec_keeps s o args d
      have hen : (exec s o args d).1.prof.enabled = true ∧
          (lookup op (exec s o args d).1.prof.timings).getD [] = (lookup op s.prof.timings).getD [] ++
            (if o = op ∧ (match lookup op s.registry with | some f => (match f args with | .ok _ => true | .error _ => false) | none => false) = true
              then [d] else []) := by
        unfold exec
        cases h1 : lookup o s.handlers with
        | some h =>
          have : o ≠ op := by rintro rfl; rw [hh] at h1; cases h1
          simp [he, this]
        | none =>
          cases h2 : lookup o s.registry with
          | none =>
            simp only [he, true_and]
            by_cases ho : o = op
            · subst ho; rw [h2]; simp
            · simp [ho]
          | some f =>
            simp only [he, Bool.true_eq_false, if_false]
            cases h3 : f args with
            | error e =>
              simp only [he, true_and]
              by_cases ho : o = op
              · subst ho; rw [h2]; simp [h3]
              · simp [ho]
            | ok v =>
              simp only [record, he, if_true, true_and, lookup_assign]
              by_cases ho : o = op
              · subst ho; rw [h2]; simp [h3]
              · simp [ho]
      rw [ih hw' _ hen.1 (by rw [hk.2]; exact hh), hen.2, hk.1, List.append_assoc]

/-- **C110** What the profiler holds after being switched on: for every opcode without a handler of the interpreter's own, one
sample per execution of it that returned, in order; failed executions are not counted. -/
theorem profile_samples {V : Type} (op : String) (es : List (Event V)) (hw : ∀ e ∈ es, work e = true) (s : Disp V)
    (hh : lookup op s.handlers = none) :
    (lookup op (runAll (step s .enable).1 es).1.prof.timings).getD [] = samples op s.registry es := by
  have := samples_run op es hw (step s .enable).1 rfl hh
  rw [this]
  simp [step, lookup]

/-- **C110 violated** ("track all primitive operations", edsl/registry.py:36-37) An operation with a handler of the interpreter's
own — on a worker these are all calls, shuffles, conditionals and loops — never appears in the profile. -/
theorem own_handlers_unprofiled_violated {V : Type} (op : String) (h : Impl V) (s : Disp V) (hs : lookup op s.handlers = some h)
    (args : List V) (d : ℚ) : (exec s op args d).1 = s := by
  unfold exec; rw [hs]

/-- `summary` of one opcode (edsl/registry.py:52-65): count, total, mean, min, max -/
def summary (ts : List ℚ) : Option (Nat × ℚ × ℚ × ℚ × ℚ) :=
  match ts with
  | [] => none
  | t :: r => some ((t :: r).length, (t :: r).sum, (t :: r).sum / (t :: r).length, r.foldl min t, r.foldl max t)

theorem foldl_min (t : ℚ) (r : List ℚ) : r.foldl min t ≤ t ∧ (∀ x ∈ r, r.foldl min t ≤ x) ∧ r.foldl min t ∈ t :: r := by
  induction r generalizing t with
  | nil => simp
  | cons a r ih =>
    obtain ⟨h1, h2, h3⟩ := ih (min t a)
    refine ⟨h1.trans (min_le_left _ _), ?_, ?_⟩
    · intro x hx
      rcases List.mem_cons.mp hx with rfl | hx
      · exact h1.trans (min_le_right _ _)
      · exact h2 x hx
    · rcases List.mem_cons.mp h3 with h | h
      · simp only [List.foldl_cons]
        rw [h]
        rcases min_choice t a with e | e <;> rw [e] <;> simp
      · exact List.mem_cons_of_mem _ (List.mem_cons_of_mem _ h)

theorem foldl_max (t : ℚ) (r : List ℚ) : t ≤ r.foldl max t ∧ (∀ x ∈ r, x ≤ r.foldl max t) ∧ r.foldl max t ∈ t :: r := by
  induction r generalizing t with
  | nil => simp
  | cons a r ih =>
    obtain ⟨h1, h2, h3⟩ := ih (max t a)
    refine ⟨(le_max_left _ _).trans h1, ?_, ?_⟩
    · intro x hx
      rcases List.mem_cons.mp hx with rfl | hx
      · exact (le_max_right _ _).trans h1
      · exact h2 x hx
    · rcases List.mem_cons.mp h3 with h | h
      · simp only [List.foldl_cons]
        rw [h]
        rcases max_choice t a with e | e <;> rw [e] <;> simp
      · exact List.mem_cons_of_mem _ (List.mem_cons_of_mem _ h)

theorem sum_bounds (lo hi : ℚ) (l : List ℚ) (h : ∀ x ∈ l, lo ≤ x ∧ x ≤ hi) : lo * l.length ≤ l.sum ∧ l.sum ≤ hi * l.length := by
  induction l with
  | nil => simp
  | cons a l ih =>
    have h1 := h a (by simp)
    have h2 := ih fun x hx => h x (List.mem_cons_of_mem _ hx)
    simp only [List.sum_cons, List.length_cons, Nat.cast_add, Nat.cast_one]
    constructor <;> linarith [h1.1, h1.2, h2.1, h2.2, mul_add lo (l.length : ℚ) 1, mul_add hi (l.length : ℚ) 1]

/-- **C110** The summary of an opcode: minimum and maximum are samples that bound all samples, the mean times the count is the
total and lies between them. -/
theorem summary_consistent (ts : List ℚ) (n : Nat) (total mean lo hi : ℚ) (h : summary ts = some (n, total, mean, lo, hi)) :
    n = ts.length ∧ total = ts.sum ∧ mean * n = total ∧ lo ∈ ts ∧ hi ∈ ts ∧ (∀ x ∈ ts, lo ≤ x ∧ x ≤ hi) ∧ lo ≤ mean ∧ mean ≤ hi := by
  cases ts with
  | nil => cases h
  | cons t r =>
    simp only [summary, Option.some.injEq, Prod.mk.injEq] at h
    obtain ⟨rfl, rfl, rfl, rfl, rfl⟩ := h
    have h1 := foldl_min t r
    have h2 := foldl_max t r
    have hb : ∀ x ∈ t :: r, r.foldl min t ≤ x ∧ x ≤ r.foldl max t := by
      intro x hx
      rcases List.mem_cons.mp hx with rfl | hx
      · exact ⟨h1.1, h2.1⟩
      · exact ⟨h1.2.1 x hx, h2.2.1 x hx⟩
    have hs := sum_bounds _ _ _ hb
    have hpos : (0 : ℚ) < ((t :: r).length : ℚ) := by
      have : 0 < (t :: r).length := by simp
      exact_mod_cast this
    refine ⟨rfl, rfl, div_mul_cancel₀ _ (ne_of_gt hpos), h1.2.2, h2.2.2, hb, ?_, ?_⟩
    · rw [le_div_iff₀ hpos]; exact hs.1
    · rw [div_le_iff₀ hpos]; exact hs.2

/-! Non-vacuity: two implementations registered for one opcode, one that fails, profiling on in between; a two-argument call. -/
/-- addition and its successor -/
def toyEvents : List (Event Int) :=
  [.register "add" fun a => .ok a.sum, .register "bad" fun _ => .error .handler, .exec "add" [1, 2] 5, .enable, .exec "add" [3] 7,
   .exec "bad" [] 1, .register "add" fun a => .ok (a.sum + 1), .exec "add" [1, 2] 3, .disable, .exec "add" [1] 9, .exec "none" [] 1]
deriving instance DecidableEq for Except
example : (runAll (V := Int) ⟨[], ⟨false, []⟩, []⟩ toyEvents).2 =
    [.ok 3, .ok 3, .error .handler, .ok 4, .ok 2, .error .notImplemented] := by decide +kernel
example : (lookup "add" (runAll (V := Int) ⟨[], ⟨false, []⟩, []⟩ toyEvents).1.prof.timings) = some [7, 3] := by decide +kernel
example : bind (T := Nat) (A := Int) ⟨"add", some (.pos 2 (some 2) fun ts _ => .ok (.one (ts.headD 0))), none⟩ ⟨[4, 4], []⟩ [.obj 1, .obj 0] [] =
    .ok (⟨[4, 4, 4], [⟨"add", [1, 0], [2], []⟩]⟩, .one 2) := by rfl
example : bind (T := Nat) (A := Int) ⟨"add", some (.pos 2 (some 2) fun ts _ => .ok (.one (ts.headD 0))), none⟩ ⟨[4, 4], []⟩ [.obj 1, .const 3] [] =
    .error .type := by rfl

end Verif.Trace.Bind
