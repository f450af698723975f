/-!
# C124: failing programs and shutdown (backends/simp_driver/mem.py:130-241, backends/simp_worker/mem.py:43-174,
backends/simp_driver/http.py:90-128, runtime/interpreter.py:608-637, backends/simp_worker/request.py:32-80)

The local simulator: a pool of threads shared by all programs, and communicators that are shut down together with it.
-/
namespace Verif.Driver.Lifecycle

variable {V E : Type}

/-- why a worker task failed: an error of the program itself, or `RuntimeError("Communicator shut down")` raised by a receive
(simp_worker/mem.py:131-132), or a receive that timed out (only with HTTP) -/
inductive Err (E : Type) where
  | own (e : E)
  | shut
  | timeout
  deriving DecidableEq

/-- state of a `concurrent.futures.Future` of one worker task; `waiting`: blocked in a receive -/
inductive Fut (V E : Type) where
  | queued
  | running
  | waiting
  | ok (v : V)
  | err (x : Err E)
  | cancelled
  deriving DecidableEq

/-- one submitted task: the program it belongs to and its state -/
structure Task (V E : Type) where
  prog : Nat
  st : Fut V E
  deriving DecidableEq

/-- the mesh: number of threads, whether it was shut down, all tasks in the order of submission -/
structure Sim (V E : Type) where
  threads : Nat
  down : Bool
  tasks : List (Task V E)
  deriving DecidableEq

/-- what can happen -/
inductive Ev (V E : Type) where
  /-- the driver submits a task of program `p` -/
  | submit (p : Nat)
  /-- a pool thread takes task `i` -/
  | start (i : Nat)
  /-- task `i` waits in a receive -/
  | block (i : Nat)
  /-- the message task `i` waits for arrives -/
  | wake (i : Nat)
  /-- the graph of task `i` ends, with a value or an error of its own -/
  | finish (i : Nat) (out : Except E V)
  /-- a receive of task `i` raises because the communicators are shut down -/
  | interrupt (i : Nat)
  /-- `collect` of program `p` wakes up; `i` is the failed future it meets first -/
  | collect (p : Nat) (i : Option Nat)
  /-- the user shuts the simulator down -/
  | shutdown

/-- what the caller sees -/
inductive Ans (V E : Type) where
  | none
  | refused
  | values (vs : List V)
  | raised (x : Err E)
  deriving DecidableEq

/-- state of task `i` -/
def Sim.at (s : Sim V E) (i : Nat) : Option (Fut V E) := (s.tasks[i]?).map Task.st

/-- a change of one future -/
def Sim.setAt (s : Sim V E) (i : Nat) (f : Fut V E) : Sim V E :=
  { s with tasks := s.tasks.modify i fun t => { t with st := f } }

/-- a task that holds a thread -/
def Fut.busy : Fut V E → Bool
  | .running | .waiting => true
  | _ => false

/-- a task that is queued -/
def Fut.isQueued : Fut V E → Bool
  | .queued => true
  | _ => false

/-- value of a finished future -/
def Fut.value? : Fut V E → Option V
  | .ok v => some v
  | _ => none

/-- `nf.cancel()`: only a queued future can be cancelled -/
def Fut.cancel : Fut V E → Fut V E
  | .queued => .cancelled
  | f => f

/-- futures of a program, in the order of submission (rank order) -/
def Sim.ofProg (s : Sim V E) (p : Nat) : List (Fut V E) := (s.tasks.filter fun t => t.prog == p).map Task.st

/-- `[x.value for x in l]`, if all have one -/
def allValues : List (Fut V E) → Option (List V)
  | [] => some []
  | f :: fs => match f.value?, allValues fs with
    | some v, some vs => some (v :: vs)
    | _, _ => none

/-- One event.
* `submit`: `ThreadPoolExecutor.submit`, refused with a `RuntimeError` after shutdown (simp_driver/mem.py:186-195);
* `start`: the pool works through its queue in order, with `max_workers=world_size` threads (simp_worker/mem.py:167), also
  after `executor.shutdown(wait=False)`;
* `block`/`wake`/`interrupt`: `recv` (simp_worker/mem.py:107-133);
* `collect`: returns the results when all futures are fine; on the first failed future it cancels the queued ones of the
  program, shuts the mesh down and raises (simp_driver/mem.py:197-209);
* `shutdown`: `LocalMesh.shutdown` (simp_worker/mem.py:169-172). -/
def step (s : Sim V E) : Ev V E → Option (Sim V E × Ans V E)
  | .submit p => if s.down then some (s, .refused) else some ({ s with tasks := s.tasks ++ [⟨p, .queued⟩] }, .none)
  | .start i => match s.at i with
    | some .queued =>
      if (s.tasks.countP fun t => t.st.busy) < s.threads ∧ (s.tasks.take i).all (fun t => !t.st.isQueued) then
        some (s.setAt i .running, .none) else none
    | _ => none
  | .block i => match s.at i with
    | some .running => if s.down then none else some (s.setAt i .waiting, .none)
    | _ => none
  | .wake i => match s.at i with
    | some .waiting => if s.down then none else some (s.setAt i .running, .none)
    | _ => none
  | .finish i out => match s.at i with
    | some .running => some (s.setAt i (match out with | .ok v => .ok v | .error e => .err (.own e)), .none)
    | _ => none
  | .interrupt i => match s.at i with
    | some .running => if s.down then some (s.setAt i (.err .shut), .none) else none
    | some .waiting => if s.down then some (s.setAt i (.err .shut), .none) else none
    | _ => none
  | .collect p none => match allValues (s.ofProg p) with
    | some vs => some (s, .values vs)
    | none => none
  | .collect p (some i) => match s.tasks[i]? with
    | some ⟨q, .err x⟩ => if q = p then
        some ({ s with down := true, tasks := s.tasks.map fun t => if t.prog = p then { t with st := t.st.cancel } else t }, .raised x)
        else none
    | _ => none
  | .shutdown => some ({ s with down := true }, .none)

/-- a run: the answers of its events and the last state -/
def run (s : Sim V E) : List (Ev V E) → Option (Sim V E × List (Ans V E))
  | [] => some (s, [])
  | e :: es => match step s e with
    | none => none
    | some (t, a) => match run t es with
      | none => none
      | some (u, as) => some (u, a :: as)

/-- a new simulator for `n` parties -/
def fresh (n : Nat) : Sim V E := ⟨n, false, []⟩

/-- `SimpHttpDriver.collect`: `[f.result() for f in futures]`, in rank order (simp_driver/http.py:94-96); `none`: still blocked -/
def httpCollect : List (Fut V E) → Option (Except (Err E) (List V))
  | [] => some (.ok [])
  | .ok v :: fs => match httpCollect fs with
    | none => none
    | some (.error x) => some (.error x)
    | some (.ok vs) => some (.ok (v :: vs))
  | .err x :: _ => some (.error x)
  | _ :: _ => none

/-- what `SimpMemDriver.collect` can raise in a state (simp_driver/mem.py:199-208) -/
def memRaises (fs : List (Fut V E)) (x : Err E) : Prop := Fut.err x ∈ fs

/-! ### Interpreters and what they own -/

/-- `Interpreter`: executor (while not shut down), tracer and dialect states by name; who owns the first two
(runtime/interpreter.py:419-472) -/
structure Itp where
  executor : Option Nat
  ownsExecutor : Bool
  tracer : Option Nat
  ownsTracer : Bool
  states : List (String × Bool)
  deriving DecidableEq

/-- visible effects of a shutdown: an executor stopped, a trace file written, a dialect state shut down -/
inductive Eff where
  | stopped (executor : Nat)
  | saved (tracer : Nat)
  | state (name : String)
  deriving DecidableEq

/-- `Interpreter.shutdown` (runtime/interpreter.py:608-637); the flag of a state says whether it has a `shutdown` method -/
def Itp.shutdown (i : Itp) : Itp × List Eff :=
  ((match i.executor with
    | some _ => if i.ownsExecutor then { i with executor := none } else i
    | none => i),
   (match i.executor with
    | some x => if i.ownsExecutor then [.stopped x] else []
    | none => []) ++
   ((match i.tracer with
    | some t => if i.ownsTracer then [.saved t] else []
    | none => []) ++
   (i.states.filter Prod.snd).map fun s => .state s.1))

/-- `create_request_interpreter`: shares executor and tracer of the worker without owning them; `SimpWorker` has no
`shutdown`, `SPUState` has one that clears its own tables (simp_worker/request.py:49-80, spu_state.py:391-394) -/
def requestItp (executor tracer : Option Nat) : Itp := ⟨executor, false, tracer, false, [("simp", false), ("spu", true)]⟩

/-- `make_simulator`: no executor, the tracer of the cluster, the memory driver (simp_driver/mem.py:258-299) -/
def hostItp (tracer : Nat) : Itp := ⟨none, true, some tracer, true, [("simp", true)]⟩

/-! ## Proofs -/

theorem at_of {s : Sim V E} {i : Nat} {f : Fut V E} (h : s.at i = some f) : ∃ t, s.tasks[i]? = some t ∧ t.st = f := by
  unfold Sim.at at h
  cases hi : s.tasks[i]? with
  | none => rw [hi] at h; cases h
  | some t => rw [hi] at h; exact ⟨t, rfl, Option.some.inj h⟩

theorem allValues_iff : ∀ {l : List (Fut V E)} {vs : List V}, allValues l = some vs ↔ l = vs.map Fut.ok
  | [], vs => by
    cases vs <;> simp [allValues]
  | f :: fs, vs => by
    cases f with
    | ok v =>
      cases h : allValues fs with
      | none =>
        simp only [allValues, Fut.value?, h]
        constructor
        · intro e; cases e
        · intro e
          cases vs with
          | nil => simp at e
          | cons w ws =>
            simp only [List.map_cons, List.cons.injEq] at e
            rw [allValues_iff.mpr e.2] at h; cases h
      | some ws =>
        simp only [allValues, Fut.value?, h, Option.some.injEq]
        have := allValues_iff.mp h
        constructor
        · rintro rfl; simp [this]
        · intro e
          cases vs with
          | nil => simp at e
          | cons w us =>
            simp only [List.map_cons, List.cons.injEq, Fut.ok.injEq] at e
            have h2 := allValues_iff.mpr e.2
            rw [h] at h2
            rw [e.1, Option.some.inj h2]
    | queued => cases vs <;> simp [allValues, Fut.value?]
    | running => cases vs <;> simp [allValues, Fut.value?]
    | waiting => cases vs <;> simp [allValues, Fut.value?]
    | err x => cases vs <;> simp [allValues, Fut.value?]
    | cancelled => cases vs <;> simp [allValues, Fut.value?]

theorem run_cons {s u : Sim V E} {e : Ev V E} {es : List (Ev V E)} {as : List (Ans V E)} (h : run s (e :: es) = some (u, as)) :
    ∃ t a bs, step s e = some (t, a) ∧ run t es = some (u, bs) ∧ as = a :: bs := by
  unfold run at h
  cases hs : step s e with
  | none => rw [hs] at h; cases h
  | some p =>
    obtain ⟨t, a⟩ := p
    rw [hs] at h
    simp only at h
    cases hr : run t es with
    | none => rw [hr] at h; cases h
    | some q =>
      obtain ⟨u', bs⟩ := q
      rw [hr] at h
      simp only [Option.some.injEq, Prod.mk.injEq] at h
      obtain ⟨rfl, rfl⟩ := h
      exact ⟨t, a, bs, rfl, hr, rfl⟩

theorem setAt_down (s : Sim V E) (i : Nat) (f : Fut V E) : (s.setAt i f).down = s.down := rfl
theorem setAt_threads (s : Sim V E) (i : Nat) (f : Fut V E) : (s.setAt i f).threads = s.threads := rfl

/-- a step never brings a simulator up again -/
theorem step_down {s t : Sim V E} {e : Ev V E} {a : Ans V E} (h : step s e = some (t, a)) (hd : s.down = true) : t.down = true := by
  cases e with
  | submit p => rw [step, if_pos hd] at h; simp only [Option.some.injEq, Prod.mk.injEq] at h; rw [← h.1]; exact hd
  | shutdown => simp only [step, Option.some.injEq, Prod.mk.injEq] at h; rw [← h.1]
  | collect p i =>
    cases i with
    | none =>
      simp only [step] at h
      split at h
      · simp only [Option.some.injEq, Prod.mk.injEq] at h; rw [← h.1]; exact hd
      · cases h
    | some i =>
      simp only [step] at h
      split at h
      · split at h
        · simp only [Option.some.injEq, Prod.mk.injEq] at h; rw [← h.1]
        · cases h
      · cases h
  | start i =>
    simp only [step] at h
    split at h
    · split at h
      · simp only [Option.some.injEq, Prod.mk.injEq] at h; rw [← h.1]; exact hd
      · cases h
    · cases h
  | block i => simp only [step, hd] at h; split at h <;> simp at h
  | wake i => simp only [step, hd] at h; split at h <;> simp at h
  | finish i out =>
    simp only [step] at h
    split at h
    · simp only [Option.some.injEq, Prod.mk.injEq] at h; rw [← h.1]; exact hd
    · cases h
  | interrupt i =>
    simp only [step, hd, if_true] at h
    split at h
    · simp only [Option.some.injEq, Prod.mk.injEq] at h; rw [← h.1]; exact hd
    · simp only [Option.some.injEq, Prod.mk.injEq] at h; rw [← h.1]; exact hd
    · cases h

/-- a raised error comes from a failed future of that program -/
theorem raised_inv {s t : Sim V E} {e : Ev V E} {x : Err E} (h : step s e = some (t, .raised x)) :
    ∃ p i, e = .collect p (some i) ∧ s.tasks[i]? = some ⟨p, .err x⟩ ∧ t.down = true := by
  cases e with
  | submit p => simp only [step] at h; split at h <;> simp at h
  | shutdown => simp [step] at h
  | collect p i =>
    cases i with
    | none => simp only [step] at h; split at h <;> simp at h
    | some i =>
      simp only [step] at h
      split at h
      · rename_i q y hi
        split at h
        · rename_i hq
          simp only [Option.some.injEq, Prod.mk.injEq, Ans.raised.injEq] at h
          refine ⟨p, i, rfl, ?_, by rw [← h.1]⟩
          rw [hi, hq, h.2]
        · cases h
      · cases h
  | start i => simp only [step] at h; split at h <;> (try split at h) <;> simp at h
  | block i => simp only [step] at h; split at h <;> (try split at h) <;> simp at h
  | wake i => simp only [step] at h; split at h <;> (try split at h) <;> simp at h
  | finish i out => simp only [step] at h; split at h <;> simp at h
  | interrupt i => simp only [step] at h; split at h <;> (try split at h) <;> simp at h

theorem setAt_get (s : Sim V E) (i j : Nat) (f : Fut V E) :
    (s.setAt i f).tasks[j]? = if i = j then (s.tasks[j]?).map (fun t => { t with st := f }) else s.tasks[j]? := by
  simp only [Sim.setAt, List.getElem?_modify]
  by_cases h : i = j
  · simp [h]
  · simp [h]

/-- where the error of a future comes from -/
theorem err_origin {s t : Sim V E} {e : Ev V E} {a : Ans V E} (h : step s e = some (t, a)) {i p : Nat} {x : Err E}
    (hi : t.tasks[i]? = some ⟨p, .err x⟩) :
    s.tasks[i]? = some ⟨p, .err x⟩ ∨ (∃ e', x = .own e' ∧ e = .finish i (.error e')) ∨ (x = .shut ∧ s.down = true) := by
  -- a change of one future to `f`
  have one : ∀ (j : Nat) (f : Fut V E), (s.setAt j f).tasks[i]? = some ⟨p, .err x⟩ →
      s.tasks[i]? = some ⟨p, .err x⟩ ∨ (j = i ∧ f = .err x) := by
    intro j f hf
    rw [setAt_get] at hf
    by_cases hj : j = i
    · rw [if_pos hj] at hf
      cases hs : s.tasks[i]? with
      | none => rw [hs] at hf; cases hf
      | some q =>
        rw [hs] at hf
        simp only [Option.map_some, Option.some.injEq, Task.mk.injEq] at hf
        exact .inr ⟨hj, hf.2⟩
    · rw [if_neg hj] at hf; exact .inl hf
  cases e with
  | submit q =>
    simp only [step] at h
    split at h
    · simp only [Option.some.injEq, Prod.mk.injEq] at h; rw [← h.1] at hi; exact .inl hi
    · simp only [Option.some.injEq, Prod.mk.injEq] at h
      rw [← h.1] at hi
      simp only [List.getElem?_append] at hi
      split at hi
      · exact .inl hi
      · exfalso
        generalize i - s.tasks.length = k at hi
        cases k with
        | zero => simp at hi
        | succ k => simp at hi
  | shutdown => simp only [step, Option.some.injEq, Prod.mk.injEq] at h; rw [← h.1] at hi; exact .inl hi
  | collect q j =>
    cases j with
    | none =>
      simp only [step] at h
      split at h
      · simp only [Option.some.injEq, Prod.mk.injEq] at h; rw [← h.1] at hi; exact .inl hi
      · cases h
    | some j =>
      simp only [step] at h
      split at h
      · split at h
        · simp only [Option.some.injEq, Prod.mk.injEq] at h
          rw [← h.1] at hi
          simp only [List.getElem?_map] at hi
          cases hs : s.tasks[i]? with
          | none => rw [hs] at hi; cases hi
          | some w =>
            obtain ⟨wp, wf⟩ := w
            rw [hs] at hi
            simp only [Option.map_some, Option.some.injEq] at hi
            split at hi
            · simp only [Task.mk.injEq] at hi
              cases wf <;> simp [Fut.cancel] at hi
              left; rw [hi.1, hi.2]
            · left; rw [hi]
        · cases h
      · cases h
  | start j =>
    simp only [step] at h
    split at h
    · split at h
      · simp only [Option.some.injEq, Prod.mk.injEq] at h
        rw [← h.1] at hi
        rcases one _ _ hi with h1 | h1
        · exact .inl h1
        · cases h1.2
      · cases h
    · cases h
  | block j =>
    simp only [step] at h
    split at h
    · split at h
      · cases h
      · simp only [Option.some.injEq, Prod.mk.injEq] at h
        rw [← h.1] at hi
        rcases one _ _ hi with h1 | h1
        · exact .inl h1
        · cases h1.2
    · cases h
  | wake j =>
    simp only [step] at h
    split at h
    · split at h
      · cases h
      · simp only [Option.some.injEq, Prod.mk.injEq] at h
        rw [← h.1] at hi
        rcases one _ _ hi with h1 | h1
        · exact .inl h1
        · cases h1.2
    · cases h
  | finish j out =>
    simp only [step] at h
    split at h
    · simp only [Option.some.injEq, Prod.mk.injEq] at h
      rw [← h.1] at hi
      rcases one _ _ hi with h1 | ⟨rfl, h1⟩
      · exact .inl h1
      · cases out with
        | ok v => cases h1
        | error e' =>
          simp only [Fut.err.injEq] at h1
          exact .inr (.inl ⟨e', h1.symm, rfl⟩)
    · cases h
  | interrupt j =>
    simp only [step] at h
    split at h
    · split at h
      · rename_i hd
        simp only [Option.some.injEq, Prod.mk.injEq] at h
        rw [← h.1] at hi
        rcases one _ _ hi with h1 | ⟨rfl, h1⟩
        · exact .inl h1
        · simp only [Fut.err.injEq] at h1
          exact .inr (.inr ⟨h1.symm, hd⟩)
      · cases h
    · split at h
      · rename_i hd
        simp only [Option.some.injEq, Prod.mk.injEq] at h
        rw [← h.1] at hi
        rcases one _ _ hi with h1 | ⟨rfl, h1⟩
        · exact .inl h1
        · simp only [Fut.err.injEq] at h1
          exact .inr (.inr ⟨h1.symm, hd⟩)
      · cases h
    · cases h

/-- what a run so far, `H`, says about the errors in a state -/
def Explained (H : List (Ev V E)) (s : Sim V E) : Prop :=
  ∀ i p x, s.tasks[i]? = some ⟨p, .err x⟩ → (∃ e, x = .own e ∧ Ev.finish i (.error e) ∈ H) ∨ (x = .shut ∧ s.down = true)

theorem explained_step {H : List (Ev V E)} {s t : Sim V E} {e : Ev V E} {a : Ans V E} (hH : Explained H s)
    (h : step s e = some (t, a)) : Explained (H ++ [e]) t := by
  intro i p x hi
  rcases err_origin h hi with h1 | ⟨e', rfl, rfl⟩ | ⟨rfl, h1⟩
  · rcases hH i p x h1 with ⟨e', rfl, hm⟩ | ⟨rfl, hd⟩
    · exact .inl ⟨e', rfl, List.mem_append_left _ hm⟩
    · exact .inr ⟨rfl, step_down h hd⟩
  · exact .inl ⟨e', rfl, by simp⟩
  · exact .inr ⟨rfl, step_down h h1⟩

theorem explained_run : ∀ (es : List (Ev V E)) {H : List (Ev V E)} {s u : Sim V E} {as : List (Ans V E)}, Explained H s →
    run s es = some (u, as) → Explained (H ++ es) u
  | [], H, s, u, as, hH, h => by
    simp only [run, Option.some.injEq, Prod.mk.injEq] at h
    rw [List.append_nil, ← h.1]; exact hH
  | e :: es, H, s, u, as, hH, h => by
    obtain ⟨t, a, bs, h1, h2, _⟩ := run_cons h
    have := explained_run es (explained_step hH h1) h2
    simpa using this

theorem run_down : ∀ (es : List (Ev V E)) {s u : Sim V E} {as : List (Ans V E)}, s.down = true → run s es = some (u, as) →
    u.down = true
  | [], s, u, as, hd, h => by
    simp only [run, Option.some.injEq, Prod.mk.injEq] at h
    rw [← h.1]; exact hd
  | e :: es, s, u, as, hd, h => by
    obtain ⟨t, a, bs, h1, h2, _⟩ := run_cons h
    exact run_down es (step_down h1 hd) h2

/-- how far the tasks are from their end -/
def left (s : Sim V E) : Nat := 2 * (s.tasks.countP fun t => t.st.isQueued) + s.tasks.countP fun t => t.st.busy

theorem countP_setAt (q : Fut V E → Bool) (s : Sim V E) (i : Nat) (t : Task V E) (ht : s.tasks[i]? = some t) (f : Fut V E) :
    ((s.setAt i f).tasks.countP fun t => q t.st) + (if q t.st then 1 else 0) =
      (s.tasks.countP fun t => q t.st) + (if q f then 1 else 0) := by
  unfold Sim.setAt
  generalize s.tasks = l at ht
  induction l generalizing i with
  | nil => simp at ht
  | cons a l ih =>
    cases i with
    | zero =>
      simp only [List.getElem?_cons_zero, Option.some.injEq] at ht
      subst ht
      simp only [List.modify_zero_cons, List.countP_cons]
      omega
    | succ i =>
      simp only [List.getElem?_cons_succ] at ht
      have := ih i ht
      simp only [List.modify_succ_cons, List.countP_cons] at this ⊢
      omega

/-- an event of the pool: a thread takes a task or a task ends -/
def Ev.ofPool : Ev V E → Bool
  | .start _ | .finish .. | .interrupt _ | .block _ | .wake _ => true
  | _ => false

theorem pool_decreases {s t : Sim V E} {e : Ev V E} {a : Ans V E} (hd : s.down = true) (he : e.ofPool = true)
    (h : step s e = some (t, a)) : left t < left s := by
  have upd : ∀ (i : Nat) (f g : Fut V E), s.at i = some g → f ≠ .queued → (g.isQueued = true ∧ f.busy = true ∨ g.busy = true ∧ f.busy = false ∧ f.isQueued = false) →
      left (s.setAt i f) < left s := by
    intro i f g hg hf hc
    obtain ⟨w, hw, rfl⟩ := at_of hg
    have c1 := countP_setAt Fut.isQueued s i w hw f
    have c2 := countP_setAt Fut.busy s i w hw f
    have hfq : f.isQueued = false := by cases f <;> simp_all [Fut.isQueued]
    unfold left
    rcases hc with ⟨h1, h2⟩ | ⟨h1, h2, _⟩
    · have h3 : w.st.busy = false := by cases hq : w.st <;> simp_all [Fut.isQueued, Fut.busy]
      simp only [h1, h2, h3, hfq, if_true, Bool.false_eq_true, if_false] at c1 c2
      omega
    · have h3 : w.st.isQueued = false := by cases hq : w.st <;> simp_all [Fut.isQueued, Fut.busy]
      simp only [h1, h2, h3, hfq, if_true, Bool.false_eq_true, if_false] at c1 c2
      omega
  cases e with
  | submit p => cases he
  | shutdown => cases he
  | collect p i => cases he
  | start i =>
    simp only [step] at h
    split at h
    · rename_i hg
      split at h
      · simp only [Option.some.injEq, Prod.mk.injEq] at h
        rw [← h.1]; exact upd i _ _ hg (by simp) (.inl ⟨rfl, rfl⟩)
      · cases h
    · cases h
  | block i => simp only [step, hd] at h; split at h <;> simp at h
  | wake i => simp only [step, hd] at h; split at h <;> simp at h
  | finish i out =>
    simp only [step] at h
    split at h
    · rename_i hg
      simp only [Option.some.injEq, Prod.mk.injEq] at h
      rw [← h.1]
      cases out with
      | ok v => exact upd i _ _ hg (by simp) (.inr ⟨rfl, rfl, rfl⟩)
      | error e => exact upd i _ _ hg (by simp) (.inr ⟨rfl, rfl, rfl⟩)
    · cases h
  | interrupt i =>
    simp only [step, hd, if_true] at h
    split at h
    · rename_i hg
      simp only [Option.some.injEq, Prod.mk.injEq] at h
      rw [← h.1]; exact upd i _ _ hg (by simp) (.inr ⟨rfl, rfl, rfl⟩)
    · rename_i hg
      simp only [Option.some.injEq, Prod.mk.injEq] at h
      rw [← h.1]; exact upd i _ _ hg (by simp) (.inr ⟨rfl, rfl, rfl⟩)
    · cases h

/-- the first queued task -/
theorem first_queued : ∀ (l : List (Task V E)), (∃ t ∈ l, t.st.isQueued = true) →
    ∃ i t, l[i]? = some t ∧ t.st.isQueued = true ∧ (l.take i).all (fun t => !t.st.isQueued) = true
  | [], h => by obtain ⟨t, ht, _⟩ := h; cases ht
  | a :: l, h => by
    by_cases ha : a.st.isQueued = true
    · exact ⟨0, a, rfl, ha, rfl⟩
    · obtain ⟨t, ht, hq⟩ := h
      cases ht with
      | head => exact absurd hq ha
      | tail _ ht =>
        obtain ⟨i, w, h1, h2, h3⟩ := first_queued l ⟨t, ht, hq⟩
        exact ⟨i + 1, w, h1, h2, by simp [ha, h3]⟩

/-! ## C124 -/

/-- **C124, results.**  `collect` answers values exactly when every task of the program ended well, in the order of the parties,
and leaves the simulator as it is. -/
theorem collect_values (s t : Sim V E) (p : Nat) (i : Option Nat) (vs : List V) :
    step s (.collect p i) = some (t, .values vs) ↔ i = none ∧ t = s ∧ (s.tasks.filter fun w => w.prog == p).map Task.st = vs.map Fut.ok := by
  cases i with
  | none =>
    simp only [step, true_and]
    cases h : allValues (s.ofProg p) with
    | none =>
      constructor
      · intro e; cases e
      · rintro ⟨-, e⟩
        have : allValues (s.ofProg p) = some vs := allValues_iff.mpr e
        rw [h] at this; cases this
    | some ws =>
      have hw := allValues_iff.mp h
      unfold Sim.ofProg at hw
      simp only [Option.some.injEq, Prod.mk.injEq, Ans.values.injEq]
      constructor
      · rintro ⟨rfl, rfl⟩; exact ⟨rfl, hw⟩
      · rintro ⟨rfl, e⟩
        refine ⟨rfl, ?_⟩
        have h2 := allValues_iff.mpr e
        rw [show List.map Task.st (List.filter (fun w => w.prog == p) t.tasks) = t.ofProg p from rfl, h] at h2
        exact Option.some.inj h2
  | some i =>
    simp only [step]
    constructor
    · intro h
      split at h
      · split at h <;> simp at h
      · cases h
    · rintro ⟨e, -⟩; cases e

/-- Two parties; both end well. -/
example : (run (fresh 2 : Sim Nat Nat) [.submit 0, .submit 0, .start 0, .start 1, .finish 1 (.ok 7), .finish 0 (.ok 5), .collect 0 none]).map
    Prod.snd = some [.none, .none, .none, .none, .none, .none, .values [5, 7]] := by decide

/-- **C124, errors (partial).**  As long as the simulator is up, an error raised by `collect` is an error one of the parties of this very
program ended with — never of another program, and never a secondary "Communicator shut down".  (Partial: not once the simulator is
down, see `later_submits_refused_violated` and `other_program_killed_violated`.) -/
theorem collect_error_partial (n : Nat) (es : List (Ev V E)) (s t : Sim V E) (as : List (Ans V E)) (p : Nat) (i : Option Nat) (x : Err E)
    (h : run (fresh n) es = some (s, as)) (hup : s.down = false) (hc : step s (.collect p i) = some (t, .raised x)) :
    ∃ k e, i = some k ∧ x = .own e ∧ Ev.finish k (.error e) ∈ es ∧ (s.tasks[k]?).map Task.prog = some p := by
  obtain ⟨q, k, he, hk, _⟩ := raised_inv hc
  cases he
  have hx : Explained ([] ++ es) s := explained_run es (fun i p x hi => by simp [fresh] at hi) h
  rcases hx k p x hk with ⟨e, rfl, hm⟩ | ⟨rfl, hd⟩
  · exact ⟨k, e, rfl, rfl, hm, by rw [hk]; rfl⟩
  · rw [hup] at hd; cases hd

/-- Party 1 fails while party 0 waits for it: the error of party 1 is what the caller gets. -/
example : (run (fresh 2 : Sim Nat Nat) [.submit 0, .submit 0, .start 0, .start 1, .block 0, .finish 1 (.error 9), .collect 0 (some 1)]).map
    (fun r => (r.1.down, r.2.getLast?)) = some (true, some (.raised (.own 9))) := by decide

/-- **C124, errors, once the simulator is down.**  Even then an error raised by `collect` is either one that a party of this program
ended with, or the notice that the simulator was shut down. -/
theorem collect_error_down (n : Nat) (es : List (Ev V E)) (s t : Sim V E) (as : List (Ans V E)) (p : Nat) (i : Option Nat) (x : Err E)
    (h : run (fresh n) es = some (s, as)) (hc : step s (.collect p i) = some (t, .raised x)) :
    (∃ k e, x = .own e ∧ Ev.finish k (.error e) ∈ es ∧ (s.tasks[k]?).map Task.prog = some p) ∨ (x = .shut ∧ s.down = true) := by
  obtain ⟨q, k, he, hk, _⟩ := raised_inv hc
  cases he
  have hx : Explained ([] ++ es) s := explained_run es (fun i p x hi => by simp [fresh] at hi) h
  rcases hx k p x hk with ⟨e, rfl, hm⟩ | ⟨rfl, hd⟩
  · exact .inl ⟨k, e, rfl, hm, by rw [hk]; rfl⟩
  · exact .inr ⟨rfl, hd⟩

/-- Events of a history in which nothing fails and nobody shuts the simulator down. -/
def Ev.fine : Ev V E → Prop
  | .shutdown => False
  | .finish _ (.error _) => False
  | _ => True

theorem healthy_aux : ∀ (es : List (Ev V E)) {s u : Sim V E} {as : List (Ans V E)}, (∀ e ∈ es, e.fine) → s.down = false →
    (∀ w ∈ s.tasks, ∀ x, w.st ≠ .err x) → run s es = some (u, as) →
    u.down = false ∧ (∀ w ∈ u.tasks, ∀ x, w.st ≠ .err x) ∧ ∀ a ∈ as, a ≠ .refused ∧ ∀ x, a ≠ .raised x
  | [], s, u, as, _, hd, hn, h => by
    simp only [run, Option.some.injEq, Prod.mk.injEq] at h
    rw [← h.1, ← h.2]; exact ⟨hd, hn, by simp⟩
  | e :: es, s, u, as, hf, hd, hn, h => by
    obtain ⟨t, a, bs, h1, h2, rfl⟩ := run_cons h
    have hfe := hf e (.head _)
    have nerr : ∀ (i p : Nat) (x : Err E), s.tasks[i]? ≠ some ⟨p, .err x⟩ := by
      intro i p x hi
      exact hn _ (List.mem_of_getElem? hi) x rfl
    have key : t.down = false ∧ (a ≠ .refused ∧ ∀ x, a ≠ .raised x) := by
      cases e with
      | submit p =>
        simp only [step, hd, Bool.false_eq_true, if_false, Option.some.injEq, Prod.mk.injEq] at h1
        rw [← h1.1, ← h1.2]; exact ⟨rfl, by simp, by simp⟩
      | shutdown => exact hfe.elim
      | collect p i =>
        cases i with
        | none =>
          simp only [step] at h1
          split at h1
          · simp only [Option.some.injEq, Prod.mk.injEq] at h1
            rw [← h1.1, ← h1.2]; exact ⟨hd, by simp, by simp⟩
          · cases h1
        | some i =>
          simp only [step] at h1
          split at h1
          · rename_i q x hi
            exact absurd hi (nerr i q x)
          · cases h1
      | start i =>
        simp only [step] at h1
        split at h1
        · split at h1
          · simp only [Option.some.injEq, Prod.mk.injEq] at h1
            rw [← h1.1, ← h1.2]; exact ⟨hd, by simp, by simp⟩
          · cases h1
        · cases h1
      | block i =>
        simp only [step] at h1
        split at h1
        · split at h1
          · cases h1
          · simp only [Option.some.injEq, Prod.mk.injEq] at h1
            rw [← h1.1, ← h1.2]; exact ⟨hd, by simp, by simp⟩
        · cases h1
      | wake i =>
        simp only [step] at h1
        split at h1
        · split at h1
          · cases h1
          · simp only [Option.some.injEq, Prod.mk.injEq] at h1
            rw [← h1.1, ← h1.2]; exact ⟨hd, by simp, by simp⟩
        · cases h1
      | finish i out =>
        simp only [step] at h1
        split at h1
        · simp only [Option.some.injEq, Prod.mk.injEq] at h1
          rw [← h1.1, ← h1.2]; exact ⟨hd, by simp, by simp⟩
        · cases h1
      | interrupt i =>
        simp only [step, hd, Bool.false_eq_true, if_false] at h1
        split at h1 <;> cases h1
    have hn' : ∀ w ∈ t.tasks, ∀ x, w.st ≠ .err x := by
      intro w hw x hx
      obtain ⟨i, hi, hget⟩ := List.getElem_of_mem hw
      have hti : t.tasks[i]? = some ⟨w.prog, .err x⟩ := by
        rw [List.getElem?_eq_getElem hi, hget, ← hx]
      rcases err_origin h1 hti with h3 | ⟨e', _, rfl⟩ | ⟨_, h3⟩
      · exact nerr _ _ _ h3
      · exact hfe
      · rw [hd] at h3; cases h3
    obtain ⟨g1, g2, g3⟩ := healthy_aux es (fun e he => hf e (.tail _ he)) key.1 hn' h2
    refine ⟨g1, g2, fun b hb => ?_⟩
    cases hb with
    | head => exact key.2
    | tail _ hb => exact g3 b hb

/-- **C124, one program after the other.**  In a history in which no party fails and nobody shuts the simulator down, the simulator stays up,
every submission is accepted and no `collect` raises. -/
theorem healthy (n : Nat) (es : List (Ev V E)) (s : Sim V E) (as : List (Ans V E)) (hf : ∀ e ∈ es, e.fine) (h : run (fresh n) es = some (s, as)) :
    s.down = false ∧ ∀ a ∈ as, a ≠ .refused ∧ ∀ x, a ≠ .raised x := by
  obtain ⟨h1, _, h3⟩ := healthy_aux es hf rfl (by simp [fresh]) h
  exact ⟨h1, h3⟩

example : (run (fresh 1 : Sim Nat Nat) [.submit 0, .start 0, .finish 0 (.ok 1), .collect 0 none, .submit 1, .start 1, .finish 1 (.ok 2), .collect 1 none]).isSome = true := by
  decide

theorem run_split : ∀ (es fs : List (Ev V E)) {s u : Sim V E} {as : List (Ans V E)}, run s (es ++ fs) = some (u, as) →
    ∃ t bs cs, run s es = some (t, bs) ∧ run t fs = some (u, cs) ∧ as = bs ++ cs
  | [], fs, s, u, as, h => ⟨s, [], as, rfl, h, rfl⟩
  | e :: es, fs, s, u, as, h => by
    obtain ⟨t, a, bs, h1, h2, rfl⟩ := run_cons h
    obtain ⟨w, b2, c2, h3, h4, rfl⟩ := run_split es fs h2
    refine ⟨w, a :: b2, c2, ?_, h4, rfl⟩
    unfold run; rw [h1]; simp only [h3]

/-- **C124, after a failure (violated).**  Whatever happens, once a `collect` has raised, every later submission, of any program, is refused:
a single failing program ends the simulator. -/
theorem later_submits_refused_violated (n : Nat) (es fs : List (Ev V E)) (p q : Nat) (i : Option Nat) (x : Err E) (s t u v : Sim V E)
    (as bs : List (Ans V E)) (a : Ans V E)
    (_h : run (fresh n) es = some (s, as)) (hc : step s (.collect p i) = some (t, .raised x)) (hf : run t fs = some (u, bs))
    (hs : step u (.submit q) = some (v, a)) : a = .refused := by
  obtain ⟨_, _, _, _, hd⟩ := raised_inv hc
  have := run_down fs hd hf
  rw [step, if_pos this] at hs
  simp only [Option.some.injEq, Prod.mk.injEq] at hs
  exact hs.2.symm

/-- One party: program 0 divides by zero, program 1 is refused. -/
example : (run (fresh 1 : Sim Nat Nat) [.submit 0, .start 0, .finish 0 (.error 1), .collect 0 (some 0), .submit 1]).map Prod.snd =
    some [.none, .none, .none, .raised (.own 1), .refused] := by decide

/-- **C124, programs of other threads (violated).**  A program in which no party fails is nevertheless answered with "Communicator shut down"
because another program failed meanwhile. -/
theorem other_program_killed_violated : ∃ (es : List (Ev Nat Nat)) (s : Sim Nat Nat) (as : List (Ans Nat Nat)),
    run (fresh 2) es = some (s, as) ∧ (∀ i e, (s.tasks[i]?).map Task.prog = some 1 → Ev.finish i (.error e) ∉ es) ∧
      Ev.shutdown ∉ es ∧ as.getLast? = some (.raised .shut) := by
  refine ⟨[.submit 0, .submit 1, .start 0, .start 1, .finish 0 (.error 9), .block 1, .collect 0 (some 0), .interrupt 1, .collect 1 (some 1)],
    ⟨2, true, [⟨0, .err (.own 9)⟩, ⟨1, .err .shut⟩]⟩, _, rfl, ?_, by simp, rfl⟩
  intro i e hi hm
  simp only [List.mem_cons, reduceCtorEq, Ev.finish.injEq, List.not_mem_nil, or_false, false_or] at hm
  obtain ⟨rfl, _⟩ := hm
  cases hi

/-- states of a future that is not finished -/
def Fut.pending : Fut V E → Bool
  | .queued | .running | .waiting => true
  | _ => false

/-- **C124, nobody waits for ever after a shutdown.**  Once the simulator is down — by the user or by a failed program — every event of the
pool brings it closer to its end, and when no such event is possible any more no task is queued, running or waiting. -/
theorem down_finishes (s : Sim V E) (hd : s.down = true) (ht : 0 < s.threads) :
    (∀ e t a, e.ofPool = true → step s e = some (t, a) → left t < left s) ∧
      ((∀ e : Ev V E, e.ofPool = true → step s e = none) → ∀ w ∈ s.tasks, w.st.pending = false) := by
  refine ⟨fun e t a he h => pool_decreases hd he h, fun hno => ?_⟩
  -- no task holds a thread: it could be interrupted
  have hbusy : ∀ w ∈ s.tasks, w.st.busy = false := by
    intro w hw
    obtain ⟨i, hi, hget⟩ := List.getElem_of_mem hw
    have hat : s.at i = some w.st := by simp [Sim.at, List.getElem?_eq_getElem hi, hget]
    cases hst : w.st with
    | running =>
      have := hno (.interrupt i) rfl
      rw [hst] at hat
      simp [step, hat, hd] at this
    | waiting =>
      have := hno (.interrupt i) rfl
      rw [hst] at hat
      simp [step, hat, hd] at this
    | queued => rfl
    | ok v => rfl
    | err x => rfl
    | cancelled => rfl
  have hq : ∀ w ∈ s.tasks, w.st.isQueued = false := by
    intro w hw
    by_cases hc : w.st.isQueued = true
    · exfalso
      obtain ⟨i, v, h1, h2, h3⟩ := first_queued s.tasks ⟨w, hw, hc⟩
      have hat : s.at i = some .queued := by
        rw [Sim.at, h1]
        cases hst : v.st <;> rw [hst] at h2 <;> first | (simp [hst]; done) | (exfalso; revert h2; simp [Fut.isQueued]; done)
      have hz : (s.tasks.countP fun t => t.st.busy) = 0 := by
        rw [List.countP_eq_zero]
        intro t htm
        rw [hbusy t htm]; simp
      have := hno (.start i) rfl
      rw [step, hat] at this
      simp only at this
      rw [if_pos ⟨by rw [hz]; exact ht, h3⟩] at this
      cases this
    · simpa using hc
  intro w hw
  have h1 := hbusy w hw
  have h2 := hq w hw
  cases hst : w.st <;> rw [hst] at h1 h2 <;> first | rfl | (exfalso; revert h1 h2; simp [Fut.isQueued, Fut.busy]; done)

/-- A party waiting for a message is woken by the shutdown. -/
example : ((run (fresh 1 : Sim Nat Nat) [.submit 0, .start 0, .block 0, .shutdown, .interrupt 0, .collect 0 (some 0)]).map Prod.snd =
    some [.none, .none, .none, .none, .none, .raised .shut]) ∧
    (run (fresh 1 : Sim Nat Nat) [.submit 0, .start 0, .block 0, .interrupt 0]).isNone = true := by decide

/-- **C124, remote programs.**  The driver of a remote cluster raises exactly the error of the first party, in rank order, that did not end
well, and returns exactly when all parties before have ended well. -/
theorem http_collect_error : ∀ (fs : List (Fut V E)) (x : Err E),
    httpCollect fs = some (.error x) ↔ ∃ (vs : List V) (gs : List (Fut V E)), fs = vs.map Fut.ok ++ .err x :: gs
  | [], x => by simp [httpCollect]
  | .ok v :: fs, x => by
    have ih := http_collect_error fs x
    cases h : httpCollect fs with
    | none =>
      rw [h] at ih
      simp only [httpCollect, h]
      constructor
      · intro e; cases e
      · rintro ⟨vs, gs, e⟩
        cases vs with
        | nil => cases e
        | cons w ws =>
          simp only [List.map_cons, List.cons_append, List.cons.injEq] at e
          exact absurd (ih.mpr ⟨ws, gs, e.2⟩) (by simp)
    | some r =>
      cases r with
      | error y =>
        rw [h] at ih
        simp only [httpCollect, h]
        constructor
        · intro e
          obtain ⟨ws, gs, hg⟩ := ih.mp e
          exact ⟨v :: ws, gs, by rw [hg]; rfl⟩
        · rintro ⟨vs, gs, e⟩
          cases vs with
          | nil => cases e
          | cons w ws =>
            simp only [List.map_cons, List.cons_append, List.cons.injEq] at e
            exact ih.mpr ⟨ws, gs, e.2⟩
      | ok us =>
        rw [h] at ih
        simp only [httpCollect, h]
        constructor
        · intro e; simp at e
        · rintro ⟨vs, gs, e⟩
          cases vs with
          | nil => cases e
          | cons w ws =>
            simp only [List.map_cons, List.cons_append, List.cons.injEq] at e
            exact absurd (ih.mpr ⟨ws, gs, e.2⟩) (by simp)
  | .err y :: fs, x => by
    simp only [httpCollect, Option.some.injEq, Except.error.injEq]
    constructor
    · rintro rfl; exact ⟨[], fs, rfl⟩
    · rintro ⟨vs, gs, e⟩
      cases vs with
      | nil =>
        simp only [List.map_nil, List.nil_append, List.cons.injEq, Fut.err.injEq] at e
        exact e.1
      | cons w ws => simp at e
  | .queued :: fs, x => by
    simp only [httpCollect]
    constructor
    · intro e; cases e
    · rintro ⟨vs, gs, e⟩
      cases vs <;> simp at e
  | .running :: fs, x => by
    simp only [httpCollect]
    constructor
    · intro e; cases e
    · rintro ⟨vs, gs, e⟩
      cases vs <;> simp at e
  | .waiting :: fs, x => by
    simp only [httpCollect]
    constructor
    · intro e; cases e
    · rintro ⟨vs, gs, e⟩
      cases vs <;> simp at e
  | .cancelled :: fs, x => by
    simp only [httpCollect]
    constructor
    · intro e; cases e
    · rintro ⟨vs, gs, e⟩
      cases vs <;> simp at e

example : httpCollect [.ok 1, .err (.own 3), (.waiting : Fut Nat Nat)] = some (.error (.own 3)) := rfl

/-- **C124, remote programs, results.** -/
theorem http_collect_values : ∀ (fs : List (Fut V E)) (vs : List V), httpCollect fs = some (.ok vs) ↔ fs = vs.map Fut.ok
  | [], vs => by cases vs <;> simp [httpCollect]
  | .ok v :: fs, vs => by
    have ih := http_collect_values fs
    cases h : httpCollect fs with
    | none =>
      simp only [httpCollect, h]
      constructor
      · intro e; cases e
      · intro e
        cases vs with
        | nil => simp at e
        | cons w ws =>
          simp only [List.map_cons, List.cons.injEq] at e
          have := (ih ws).mpr e.2
          rw [h] at this; cases this
    | some r =>
      cases r with
      | error y =>
        simp only [httpCollect, h]
        constructor
        · intro e; simp at e
        · intro e
          cases vs with
          | nil => simp at e
          | cons w ws =>
            simp only [List.map_cons, List.cons.injEq] at e
            have := (ih ws).mpr e.2
            rw [h] at this; simp at this
      | ok us =>
        have hu := (ih us).mp h
        simp only [httpCollect, h, Option.some.injEq, Except.ok.injEq]
        constructor
        · rintro rfl; rw [hu]; rfl
        · intro e
          cases vs with
          | nil => simp at e
          | cons w ws =>
            simp only [List.map_cons, List.cons.injEq, Fut.ok.injEq] at e
            have := (ih ws).mpr e.2
            rw [h] at this
            simp only [Option.some.injEq, Except.ok.injEq] at this
            rw [e.1, this]
  | .err y :: fs, vs => by cases vs <;> simp [httpCollect]
  | .queued :: fs, vs => by cases vs <;> simp [httpCollect]
  | .running :: fs, vs => by cases vs <;> simp [httpCollect]
  | .waiting :: fs, vs => by cases vs <;> simp [httpCollect]
  | .cancelled :: fs, vs => by cases vs <;> simp [httpCollect]

example : httpCollect [.ok 1, (.ok 2 : Fut Nat Nat)] = some (.ok [1, 2]) := rfl

/-- **C124, remote programs (violated).**  Party 1 has failed, but the driver goes on waiting for party 0, which waits for party 1; and when
the wait of party 0 times out, this is the error the caller gets, not the cause.  The local driver raises the error at once. -/
theorem http_hides_cause_violated : httpCollect [.waiting, (.err (.own 9) : Fut Nat Nat)] = none ∧
    httpCollect [.err .timeout, (.err (.own 9) : Fut Nat Nat)] = some (.error .timeout) ∧
    memRaises [.waiting, (.err (.own 9) : Fut Nat Nat)] (.own 9) := ⟨rfl, rfl, by simp [memRaises]⟩

/-! ### Interpreters -/

/-- `k` shutdowns in a row -/
def shutdowns : Nat → Itp → Itp × List Eff
  | 0, i => (i, [])
  | k + 1, i => ((shutdowns k i.shutdown.1).1, i.shutdown.2 ++ (shutdowns k i.shutdown.1).2)

/-- **C124, what a request may stop.**  However often the interpreter of a request is shut down, the shared executor keeps running, the shared
trace is not written, and the interpreter keeps its executor. -/
theorem request_keeps_shared (executor tracer : Option Nat) (k : Nat) :
    (shutdowns k (requestItp executor tracer)).1 = requestItp executor tracer ∧
      (∀ x, Eff.stopped x ∉ (shutdowns k (requestItp executor tracer)).2) ∧ ∀ x, Eff.saved x ∉ (shutdowns k (requestItp executor tracer)).2 := by
  have hs : (requestItp executor tracer).shutdown = (requestItp executor tracer, [.state "spu"]) := by
    cases executor <;> cases tracer <;> rfl
  induction k with
  | zero => simp [shutdowns]
  | succ k ih => simp [shutdowns, hs, ih.1, ih.2.1, ih.2.2]

example : (shutdowns 3 (requestItp (some 4) (some 5))).2 = [.state "spu", .state "spu", .state "spu"] := rfl

theorem stopped_aux (i : Itp) : ∀ k, i.executor = none → ∀ x, Eff.stopped x ∉ (shutdowns k i).2 := by
  intro k
  induction k generalizing i with
  | zero => intro _ x; simp [shutdowns]
  | succ k ih =>
    intro h x
    have h1 : i.shutdown.1.executor = none := by simp [Itp.shutdown, h]
    have h2 : Eff.stopped x ∉ i.shutdown.2 := by
      cases ht : i.tracer with
      | none => simp [Itp.shutdown, h, ht]
      | some t =>
        by_cases ho : i.ownsTracer = true
        · simp [Itp.shutdown, h, ht, ho]
        · simp [Itp.shutdown, h, ht, ho]
    simp only [shutdowns, List.mem_append, not_or]
    exact ⟨h2, ih _ h1 x⟩

/-- **C124, shutting down again.**  However often an interpreter is shut down, its executor is stopped at most once, and only if it is its own. -/
theorem executor_stopped_once (i : Itp) (k x : Nat) :
    ((shutdowns k i).2.filter fun e => e = .stopped x).length ≤ 1 ∧
      (Eff.stopped x ∈ (shutdowns k i).2 → i.executor = some x ∧ i.ownsExecutor = true) := by
  cases k with
  | zero => simp [shutdowns]
  | succ k =>
    cases he : i.executor with
    | none =>
      have h := stopped_aux i (k + 1) he x
      refine ⟨?_, fun hm => absurd hm h⟩
      rw [List.filter_eq_nil_iff.2]
      · simp
      · intro a ha hc
        simp only [decide_eq_true_eq] at hc
        exact h (hc ▸ ha)
    | some y =>
      by_cases ho : i.ownsExecutor = true
      · -- own executor: stopped now, gone afterwards
        have h1 : i.shutdown.1.executor = none := by simp [Itp.shutdown, he, ho]
        have hrest := stopped_aux _ k h1 x
        have hnil : (shutdowns k i.shutdown.1).2.filter (fun e => e = .stopped x) = [] := by
          rw [List.filter_eq_nil_iff]
          intro a ha hc
          simp only [decide_eq_true_eq] at hc
          exact hrest (hc ▸ ha)
        have h2 : ∃ l, i.shutdown.2 = .stopped y :: l ∧ ∀ z, Eff.stopped z ∉ l := by
          cases ht : i.tracer with
          | none => exact ⟨(i.states.filter Prod.snd).map fun s => .state s.1, by simp [Itp.shutdown, he, ho, ht], by simp⟩
          | some t =>
            by_cases hot : i.ownsTracer = true
            · exact ⟨.saved t :: (i.states.filter Prod.snd).map fun s => .state s.1, by simp [Itp.shutdown, he, ho, ht, hot], by simp⟩
            · exact ⟨(i.states.filter Prod.snd).map fun s => .state s.1, by simp [Itp.shutdown, he, ho, ht, hot], by simp⟩
        obtain ⟨l, hl, hno⟩ := h2
        have hlnil : l.filter (fun e => e = .stopped x) = [] := by
          rw [List.filter_eq_nil_iff]
          intro a ha hc
          simp only [decide_eq_true_eq] at hc
          exact hno x (hc ▸ ha)
        simp only [shutdowns, List.filter_append, hnil, hl, List.append_nil, List.filter_cons, hlnil]
        refine ⟨by split <;> simp, ?_⟩
        intro hm
        rcases List.mem_append.1 hm with h | h
        · cases h with
          | head => exact ⟨rfl, ho⟩
          | tail _ h => exact absurd h (hno x)
        · exact absurd h hrest
      · -- not its own
        have hno : ∀ j, ∀ i : Itp, i.ownsExecutor = false → Eff.stopped x ∉ (shutdowns j i).2 := by
          intro j
          induction j with
          | zero => intro i _; simp [shutdowns]
          | succ j ih =>
            intro i hi
            have h1 : i.shutdown.1 = i := by
              cases h : i.executor <;> simp [Itp.shutdown, h, hi]
            have h2 : Eff.stopped x ∉ i.shutdown.2 := by
              cases h : i.executor <;> cases ht : i.tracer <;> by_cases hot : i.ownsTracer = true <;>
                simp [Itp.shutdown, h, hi, ht, hot]
            simp only [shutdowns, List.mem_append, not_or]
            exact ⟨h2, by rw [h1]; exact ih i hi⟩
        have h := hno (k + 1) i (by simpa using ho)
        refine ⟨?_, fun hm => absurd hm h⟩
        rw [List.filter_eq_nil_iff.2]
        · simp
        · intro a ha hc
          simp only [decide_eq_true_eq] at hc
          exact h (hc ▸ ha)

example : (shutdowns 2 ⟨some 3, true, none, true, []⟩).2 = [.stopped 3] := rfl

/-- **C124, "idempotent" shutdown (violated).**  Shutting the host down a second time writes another trace file and shuts the driver down
again; and the trace is written before the workers stop. -/
theorem shutdown_idempotent_violated : (shutdowns 2 (hostItp 7)).2 = [.saved 7, .state "simp", .saved 7, .state "simp"] := rfl

end Verif.Driver.Lifecycle
