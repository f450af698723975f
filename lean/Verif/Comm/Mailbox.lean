import Mathlib.Logic.Basic
/-!
# C27 — the mailbox (backends/simp_worker/mem.py:117-148, http.py:491-549), C26 — request handles (base.py)
-/
namespace Verif.Comm
namespace Mailbox
variable {K V : Type} [DecidableEq K]

/-- State of one communicator: `_mailbox` (python dict keyed by (sender, key)), `_shutdown`, and the receive calls in
progress, by an identifier of the call. -/
structure State (K V : Type) where
  box : List (K × V)
  shut : Bool
  waiting : List (Nat × K)

/-- What can happen next; every one is atomic under the condition's lock. -/
inductive Event (K V : Type) where
  | deliver (k : K) (v : V)   -- `_on_receive`
  | call (id : Nat) (k : K)    -- a thread enters `recv`
  | check (id : Nat)           -- a thread in `recv` holds the lock and tests the loop condition
  | timeout (id : Nat)         -- http.py:519-523: a waiting receive gives up (never happens for mem.py)
  | shutdown

/-- Observable outcome of an event. -/
inductive Outcome (K V : Type) where
  | stored | overflow | none
  | got (k : K) (v : V) | raised | stillWaiting

/-- dict lookup -/
def find (k : K) : List (K × V) → Option V
  | [] => .none
  | (a, v) :: l => if a = k then some v else find k l
/-- `pop` -/
def erase (k : K) : List (K × V) → List (K × V)
  | [] => []
  | (a, v) :: l => if a = k then l else (a, v) :: erase k l

/-- One event (mem.py:54-57, 132-148).  `timeouts = false` is mem.py, where `timeout` is ignored. -/
def step (timeouts : Bool) (s : State K V) : Event K V → State K V × Outcome K V
  | .deliver k v => match find k s.box with
    | some _ => (s, .overflow)
    | .none => ({ s with box := s.box ++ [(k, v)] }, .stored)
  | .call id k => ({ s with waiting := s.waiting ++ [(id, k)] }, .none)
  | .check id => match find id s.waiting with
    | .none => (s, .none)
    | some k =>
      if s.shut then ({ s with waiting := erase id s.waiting }, .raised)
      else match find k s.box with
        | some v => ({ s with box := erase k s.box, waiting := erase id s.waiting }, .got k v)
        | .none => (s, .stillWaiting)
  | .timeout id => if timeouts then
      match find id s.waiting with
      | .none => (s, .none)
      | some k => match find k s.box with
        | some _ => (s, .none)
        | .none => ({ s with waiting := erase id s.waiting }, .raised)
    else (s, .none)
  | .shutdown => ({ s with shut := true }, .none)

/-- A history: events with their outcomes. -/
def run (tm : Bool) (s : State K V) : List (Event K V) → State K V × List (Event K V × Outcome K V)
  | [] => (s, [])
  | e :: es =>
    let (s1, o) := step tm s e
    let (s2, os) := run tm s1 es
    (s2, (e, o) :: os)

/-! ## Specification vocabulary: read off the history only -/

/-- messages accepted under `k`, in order -/
def accepted (k : K) : List (Event K V × Outcome K V) → List V
  | [] => []
  | (.deliver k' v, .stored) :: l => if k' = k then v :: accepted k l else accepted k l
  | _ :: l => accepted k l

/-- messages handed to receives for `k`, in order -/
def received (k : K) : List (Event K V × Outcome K V) → List V
  | [] => []
  | (_, .got k' v) :: l => if k' = k then v :: received k l else received k l
  | _ :: l => received k l

theorem find_append_single (k k' : K) (v : V) (l : List (K × V)) (h : find k' l = .none) :
    find k (l ++ [(k', v)]) = if k' = k then some v else find k l := by
  induction l with
  | nil => simp [find]
  | cons a l ih =>
    obtain ⟨x, y⟩ := a
    simp only [find, List.cons_append]
    simp only [find] at h
    by_cases hx : x = k'
    · simp [hx] at h
    · simp only [hx, if_false] at h
      rw [ih h]
      by_cases hk : x = k
      · subst hk
        simp [Ne.symm hx]
      · simp [hk]

/-- distinct keys -/
def Keys (l : List (K × V)) : Prop := (l.map Prod.fst).Nodup

theorem find_none_iff (k : K) (l : List (K × V)) : find k l = .none ↔ k ∉ l.map Prod.fst := by
  induction l with
  | nil => simp [find]
  | cons a l ih =>
    obtain ⟨x, y⟩ := a
    simp only [find, List.map_cons, List.mem_cons, not_or]
    by_cases h : x = k
    · simp [h]
    · simp [h, ih, Ne.symm h]

theorem erase_find (k k' : K) (l : List (K × V)) (h : Keys l) : find k (erase k' l) = if k' = k then .none else find k l := by
  induction l with
  | nil => simp [find, erase]
  | cons a l ih =>
    obtain ⟨x, y⟩ := a
    simp only [Keys, List.map_cons, List.nodup_cons] at h
    simp only [erase]
    by_cases hx : x = k'
    · subst hx
      simp only [if_true, find]
      by_cases hk : x = k
      · subst hk; simp [(find_none_iff x l).mpr h.1]
      · simp [hk]
    · simp only [hx, if_false, find, ih h.2]
      by_cases hk : x = k
      · subst hk; simp [Ne.symm hx]
      · simp [hk]

theorem erase_keys (k : K) (l : List (K × V)) (h : Keys l) : Keys (erase k l) := by
  have sub : List.Sublist ((erase k l).map Prod.fst) (l.map Prod.fst) := by
    clear h
    induction l with
    | nil => simp [erase]
    | cons a l ih =>
      simp only [erase]
      split
      · simp
      · simpa using ih
  exact List.Nodup.sublist sub h

theorem step_keys (tm : Bool) (s : State K V) (e : Event K V) (h : Keys s.box) : Keys (step tm s e).1.box := by
  cases e with
  | deliver k v =>
    simp only [step]
    split
    · exact h
    · rename_i hn
      simp only [Keys, List.map_append, List.map_cons, List.map_nil]
      rw [List.nodup_append]
      refine ⟨h, by simp, ?_⟩
      intro a ha b hb
      simp only [List.mem_singleton] at hb
      subst hb
      exact fun he => (find_none_iff b s.box).mp hn (he ▸ ha)
  | call id k => exact h
  | check id =>
    simp only [step]
    split
    · exact h
    · split
      · exact h
      · split
        · exact erase_keys _ _ h
        · exact h
  | timeout id =>
    simp only [step]
    split
    · split
      · exact h
      · split <;> exact h
    · exact h
  | shutdown => exact h

/-- contents of a slot as a list -/
def slot (k : K) (s : State K V) : List V := (find k s.box).toList

theorem step_conserve (tm : Bool) (s : State K V) (e : Event K V) (h : Keys s.box) (k : K) :
    slot k s ++ accepted k [(e, (step tm s e).2)] = received k [(e, (step tm s e).2)] ++ slot k (step tm s e).1 := by
  cases e with
  | deliver k' v =>
    simp only [step]
    cases hf : find k' s.box with
    | some w => simp [accepted, received]
    | none =>
      simp only [accepted, received, slot, find_append_single k k' v s.box hf]
      by_cases hk : k' = k
      · subst hk; simp [hf]
      · simp [hk]
  | call id k' => simp [step, accepted, received, slot]
  | check id =>
    simp only [step]
    split
    · simp [accepted, received, slot]
    · rename_i k' hw
      split
      · simp [accepted, received, slot]
      · split
        · rename_i v hv
          simp only [accepted, received, slot, erase_find k k' s.box h]
          by_cases hk : k' = k
          · subst hk; simp [hv]
          · simp [hk]
        · simp [accepted, received, slot]
  | timeout id =>
    simp only [step]
    split
    · split
      · simp [accepted, received, slot]
      · split <;> simp [accepted, received, slot]
    · simp [accepted, received, slot]
  | shutdown => simp [step, accepted, received, slot]

theorem accepted_cons (k : K) (x : Event K V × Outcome K V) (l : List (Event K V × Outcome K V)) :
    accepted k (x :: l) = accepted k [x] ++ accepted k l := by
  obtain ⟨e, o⟩ := x
  cases e <;> cases o <;> simp [accepted]
  split <;> simp

theorem received_cons (k : K) (x : Event K V × Outcome K V) (l : List (Event K V × Outcome K V)) :
    received k (x :: l) = received k [x] ++ received k l := by
  obtain ⟨e, o⟩ := x
  cases o <;> simp [received]
  split <;> simp

theorem run_conserve (tm : Bool) (s : State K V) (es : List (Event K V)) (h : Keys s.box) (k : K) :
    slot k s ++ accepted k (run tm s es).2 = received k (run tm s es).2 ++ slot k (run tm s es).1 := by
  induction es generalizing s with
  | nil => simp [run, accepted, received]
  | cons e es ih =>
    have h1 := step_conserve tm s e h k
    have h2 := ih (step tm s e).1 (step_keys tm s e h)
    simp only [run]
    rw [accepted_cons, received_cons, ← List.append_assoc, h1, List.append_assoc, h2, List.append_assoc]

/-- a new communicator -/
def init : State K V := ⟨[], false, []⟩

/-- **C27** For every history of deliveries, receive calls, lock acquisitions, timeouts and shutdown, and every (sender, key):
the messages handed out under it are the accepted ones, in the order of acceptance, without loss or duplication; at most one
accepted message is still in the mailbox. -/
theorem mailbox_exactly_once (tm : Bool) (es : List (Event K V)) (k : K) :
    accepted k (run tm init es).2 = received k (run tm init es).2 ++ (find k (run tm init es).1.box).toList := by
  have := run_conserve tm (init : State K V) es (by simp [Keys, init]) k
  simpa [slot, init, find] using this

/-- **C27** A second message for an occupied slot is refused, and the refusal changes nothing. -/
theorem mailbox_refuses_second (tm : Bool) (s : State K V) (k : K) (v w : V) (h : find k s.box = some w) :
    step tm s (.deliver k v) = (s, .overflow) := by
  simp [step, h]

/-- **C27** The refusal happens only then: with the slot free the message is accepted, also while others wait. -/
theorem mailbox_accepts (tm : Bool) (s : State K V) (k : K) (v : V) (h : find k s.box = .none) :
    (step tm s (.deliver k v)).2 = .stored := by
  simp [step, h]

theorem shut_stays (tm : Bool) (s : State K V) (es : List (Event K V)) (h : s.shut = true) : (run tm s es).1.shut = true := by
  induction es generalizing s with
  | nil => exact h
  | cons e es ih =>
    simp only [run]
    apply ih
    cases e with
    | deliver k v => simp only [step]; split <;> exact h
    | call id k => exact h
    | check id =>
      simp only [step]
      split
      · exact h
      · simp only [h, if_true]
    | timeout id =>
      simp only [step]
      split
      · split
        · exact h
        · split <;> exact h
      · exact h
    | shutdown => rfl

/-- **C27** After shutdown every receive in progress, and every later one, raises as soon as it gets the lock (which
`notify_all` guarantees): it neither waits on nor returns a value. -/
theorem mailbox_shutdown (tm : Bool) (s : State K V) (es : List (Event K V)) (h : s.shut = true) (id : Nat)
    (hw : find id (run tm s es).1.waiting ≠ .none) : (step tm (run tm s es).1 (.check id)).2 = .raised := by
  have hs := shut_stays tm s es h
  cases hf : find id (run tm s es).1.waiting with
  | none => exact absurd hf hw
  | some k => simp [step, hf, hs]

/-! Non-vacuity: two senders with the same tag, a receive that waits first, an overflow. -/
example : (run false (init : State (Nat × String) Nat)
    [.call 0 (1, "a"), .check 0, .deliver (1, "a") 10, .deliver (2, "a") 20, .deliver (1, "a") 11, .check 0, .deliver (1, "a") 12]).2.map (·.2) =
    [.none, .stillWaiting, .stored, .stored, .overflow, .got (1, "a") 10, .stored] := rfl

end Mailbox

/-! ## C26: request handles -/
namespace Req
variable {V E : Type}

/-- the underlying `concurrent.futures.Future`; `timeoutErr` = finished with an exception that is a `TimeoutError` -/
inductive Fut (V E : Type) where
  | pending | running
  | done (v : V) | error (e : E) | timeoutErr (e : E) | cancelled

/-- `future.done()` -/
def Fut.isDone : Fut V E → Bool
  | .pending => false
  | .running => false
  | _ => true

/-- `RequestStatus` (base.py:119-125) -/
inductive Status where
  | pending | completed | cancelled | error
deriving DecidableEq

/-- `Request` (base.py:142-153) -/
structure Request (V E : Type) where
  fut : Fut V E
  result : Option V
  err : Option E
  status : Status

/-- a new handle -/
def fresh (f : Fut V E) : Request V E := ⟨f, none, none, .pending⟩

/-- `_finalize` (base.py:170-183) -/
def finalize (r : Request V E) : Request V E :=
  if r.status ≠ .pending then r
  else match r.fut with
    | .cancelled => { r with status := .cancelled }
    | .done v => { r with result := some v, status := .completed }
    | .error e => { r with err := some e, status := .error }
    | .timeoutErr e => { r with err := some e, status := .error }
    | _ => r     -- `future.result(timeout=0)` would raise TimeoutError; only reached when `future.done()`

/-- what the caller sees -/
inductive Seen (V E : Type) where
  | status (s : Status)
  | value (v : Option V)      -- result, `None` if there is none
  | notYet                    -- `(False, None)`
  | raised (e : E)
  | cancelledError
  | timedOut
  | bool (b : Bool)

/-- API calls and steps of the environment -/
inductive Act (V E : Type) where
  | status | wait | test | cancel
  | start | complete (v : V) | fail (e : E) | failTimeout (e : E)

/-- `status` property (155-163), `wait` (185-213; a wait on an unfinished future is the case where its timeout expires),
`test` (215-234), `cancel` (236-245); environment: the executor's transitions of a future. -/
def act (r : Request V E) : Act V E → Request V E × Option (Seen V E)
  | .status =>
    if r.status ≠ .pending then (r, some (.status r.status))
    else
      let r1 := if r.fut.isDone then finalize r else r
      (r1, some (.status r1.status))
  | .wait => match r.fut with
    | .done v => ({ r with result := some v, status := .completed }, some (.value (some v)))
    | .timeoutErr _ => (r, some .timedOut)
    | .error e => ({ r with err := some e, status := .error }, some (.raised e))
    | .cancelled => ({ r with status := .cancelled }, some .cancelledError)
    | _ => (r, some .timedOut)
  | .test =>
    if !r.fut.isDone then (r, some .notYet)
    else
      let r1 := finalize r
      (r1, some (match r1.status, r1.err with
        | .error, some e => .raised e
        | _, _ => .value r1.result))
  | .cancel => match r.fut with
    | .pending => ({ r with fut := .cancelled, status := .cancelled }, some (.bool true))
    | .cancelled => ({ r with status := .cancelled }, some (.bool true))
    | _ => (r, some (.bool false))
  | .start => match r.fut with
    | .pending => ({ r with fut := .running }, none)
    | _ => (r, none)
  | .complete v => match r.fut with
    | .running => ({ r with fut := .done v }, none)
    | _ => (r, none)
  | .fail e => match r.fut with
    | .running => ({ r with fut := .error e }, none)
    | _ => (r, none)
  | .failTimeout e => match r.fut with
    | .running => ({ r with fut := .timeoutErr e }, none)
    | _ => (r, none)

/-- a history -/
def runs (r : Request V E) : List (Act V E) → Request V E
  | [] => r
  | a :: l => runs (act r a).1 l

/-- the handle agrees with its future -/
def Good (r : Request V E) : Prop :=
  match r.status, r.fut with
  | .pending, _ => r.result = none ∧ r.err = none
  | .completed, .done v => r.result = some v ∧ r.err = none
  | .cancelled, .cancelled => r.result = none ∧ r.err = none
  | .error, .error e => r.result = none ∧ r.err = some e
  | .error, .timeoutErr e => r.result = none ∧ r.err = some e
  | _, _ => False

theorem fresh_good (f : Fut V E) : Good (fresh f) := by simp [Good, fresh]

theorem act_good (r : Request V E) (a : Act V E) (h : Good r) : Good (act r a).1 := by
  obtain ⟨f, res, err, st⟩ := r
  cases st <;> cases f <;> cases a <;> simp_all [Good, act, finalize, Fut.isDone]

theorem runs_good (r : Request V E) (l : List (Act V E)) (h : Good r) : Good (runs r l) := by
  induction l generalizing r with
  | nil => exact h
  | cons a l ih => exact ih _ (act_good r a h)

/-- **C26** A finished status never changes again, nor do the stored result and error, under any further calls and events. -/
theorem request_final (r : Request V E) (l : List (Act V E)) (h : Good r) (hs : r.status ≠ .pending) :
    (runs r l).status = r.status ∧ (runs r l).result = r.result ∧ (runs r l).err = r.err := by
  induction l generalizing r with
  | nil => exact ⟨rfl, rfl, rfl⟩
  | cons a l ih =>
    have key : (act r a).1.status = r.status ∧ (act r a).1.result = r.result ∧ (act r a).1.err = r.err := by
      obtain ⟨f, res, err, st⟩ := r
      cases st <;> cases f <;> cases a <;> simp_all [Good, act, finalize, Fut.isDone]
    have := ih (act r a).1 (act_good r a h) (by rw [key.1]; exact hs)
    exact ⟨this.1.trans key.1, this.2.1.trans key.2.1, this.2.2.trans key.2.2⟩

/-- **C26** The status a caller reads is pending exactly while the operation is unfinished, and otherwise says how it ended. -/
theorem status_exact (r : Request V E) (h : Good r) : (act r .status).2 = some (.status (match r.fut with
    | .pending => .pending | .running => .pending | .done _ => .completed | .cancelled => .cancelled
    | .error _ => .error | .timeoutErr _ => .error)) := by
  obtain ⟨f, res, err, st⟩ := r
  cases st <;> cases f <;> simp_all [Good, act, finalize, Fut.isDone]

/-- **C26** `test` answers "not yet" exactly while unfinished; afterwards it returns the result or raises the error. -/
theorem test_exact (r : Request V E) (h : Good r) : (act r .test).2 = some (match r.fut with
    | .pending => .notYet | .running => .notYet | .done v => .value (some v) | .cancelled => .value none
    | .error e => .raised e | .timeoutErr e => .raised e) := by
  obtain ⟨f, res, err, st⟩ := r
  cases st <;> cases f <;> simp_all [Good, act, finalize, Fut.isDone]

/-- **C26** (proved part) Waiting on a finished request returns its outcome — except when the operation failed with a
`TimeoutError`, see `wait_timeout_violated`. -/
theorem wait_outcome_partial (r : Request V E) (hne : ∀ e, r.fut ≠ .timeoutErr e) : (act r .wait).2 = some (match r.fut with
    | .pending => .timedOut | .running => .timedOut | .done v => .value (some v) | .cancelled => .cancelledError
    | .error e => .raised e | .timeoutErr _ => .timedOut) := by
  obtain ⟨f, res, err, st⟩ := r
  cases f <;> simp [act]

/-- **C26 violated** A request that failed with a `TimeoutError` (for instance a send whose connection timed out) is reported
by `wait` as "timed out waiting", indistinguishable from an unfinished one, and stays pending in the handle. -/
theorem wait_timeout_violated (e : E) (r : Request V E) (hf : r.fut = .timeoutErr e) :
    act r .wait = (r, some .timedOut) := by
  obtain ⟨f, res, err, st⟩ := r
  simp only at hf
  subst hf
  rfl

/-- `wait_all` after all futures are done (base.py:299-307): results, or the first error in argument order -/
def collectAll : List (Request V E) → Except E (List (Option V))
  | [] => .ok []
  | r :: rs =>
    let r1 := finalize r
    match r1.status, r1.err with
    | .error, some e => .error e
    | _, _ => match collectAll rs with
      | .ok vs => .ok (r1.result :: vs)
      | .error e => .error e

/-- `wait_all` (base.py:270-307); `none` = TimeoutError -/
def waitAll (rs : List (Request V E)) : Option (Except E (List (Option V))) :=
  if rs.all (fun r => r.fut.isDone) then some (collectAll rs) else none

/-- outcome of a finished operation: value, or error; cancelled = no value -/
def outcome : Fut V E → Except E (Option V)
  | .done v => .ok (some v)
  | .error e => .error e
  | .timeoutErr e => .error e
  | _ => .ok none

/-- **C26** `wait_all` returns only when all are finished; it returns the outcomes in argument order, or the error of the
first failed request in argument order. -/
theorem wait_all_outcomes (rs : List (Request V E)) (h : ∀ r ∈ rs, Good r) :
    waitAll rs = if ∀ r ∈ rs, r.fut.isDone = true then some (rs.mapM (fun r => outcome r.fut)) else none := by
  have key : ∀ rs : List (Request V E), (∀ r ∈ rs, Good r) → (∀ r ∈ rs, r.fut.isDone = true) →
      collectAll rs = rs.mapM (fun r => outcome r.fut) := by
    intro rs
    induction rs with
    | nil => intro _ _; rfl
    | cons r rs ih =>
      intro hg hd
      have h1 := hg r (by simp)
      have h2 := hd r (by simp)
      have := ih (fun x hx => hg x (by simp [hx])) (fun x hx => hd x (by simp [hx]))
      rw [List.mapM_cons]
      simp only [collectAll, this]
      generalize List.mapM (fun r => outcome r.fut) rs = M
      clear this ih hg hd h
      obtain ⟨f, res, err, st⟩ := r
      cases M <;> cases st <;> cases f <;>
        simp_all [Good, finalize, Fut.isDone, outcome, bind, Except.bind, pure, Except.pure]
  unfold waitAll
  by_cases hd : ∀ r ∈ rs, r.fut.isDone = true
  · rw [if_pos (List.all_eq_true.mpr hd), if_pos hd, key rs h hd]
  · rw [if_neg hd, if_neg (fun hc => hd (List.all_eq_true.mp hc))]

/-- `wait_any` (base.py:310-349): the first request in argument order whose future is in `done`; `none` = timed out -/
def waitAny : Nat → List (Request V E) → Option (Nat × Except E (Option V))
  | _, [] => none
  | i, r :: rs =>
    if r.fut.isDone then
      let r1 := finalize r
      some (i, match r1.status, r1.err with
        | .error, some e => .error e
        | _, _ => .ok r1.result)
    else waitAny (i + 1) rs

/-- **C26** `wait_any` returns the index and outcome of a finished request (the first one in argument order), and nothing
exactly if none is finished. -/
theorem wait_any_outcome (rs : List (Request V E)) (h : ∀ r ∈ rs, Good r) (i : Nat) :
    (waitAny i rs = none ↔ ∀ r ∈ rs, r.fut.isDone = false) ∧
    (∀ j o, waitAny i rs = some (j, o) → i ≤ j ∧ ∃ r, rs[j - i]? = some r ∧ r.fut.isDone = true ∧ o = outcome r.fut ∧
      ∀ m q, m < j - i → rs[m]? = some q → q.fut.isDone = false) := by
  induction rs generalizing i with
  | nil => simp [waitAny]
  | cons r rs ih =>
    have hg := h r (by simp)
    by_cases hd : r.fut.isDone = true
    · simp only [waitAny, hd, if_true]
      refine ⟨?_, ?_⟩
      · constructor
        · intro hh; simp at hh
        · intro hh
          have := hh r (by simp)
          rw [hd] at this
          cases this
      · intro j o hjo
        simp only [Option.some.injEq, Prod.mk.injEq] at hjo
        obtain ⟨rfl, rfl⟩ := hjo
        refine ⟨Nat.le_refl _, r, by simp, hd, ?_, fun m q hm _ => absurd hm (by omega)⟩
        obtain ⟨f, res, err, st⟩ := r
        cases st <;> cases f <;> simp_all [Good, finalize, Fut.isDone, outcome]
    · have hd' : r.fut.isDone = false := by cases hh : r.fut.isDone <;> simp_all
      simp only [waitAny, hd', Bool.false_eq_true, if_false]
      obtain ⟨h1, h2⟩ := ih (fun x hx => h x (by simp [hx])) (i + 1)
      refine ⟨?_, ?_⟩
      · rw [h1]
        simp [hd']
      · intro j o hjo
        obtain ⟨hj, q, a1, a2, a3, a4⟩ := h2 j o hjo
        refine ⟨by omega, q, ?_, a2, a3, ?_⟩
        · have : j - i = (j - (i + 1)) + 1 := by omega
          rw [this]
          simpa using a1
        · intro m q hm hq
          cases m with
          | zero => simp only [List.getElem?_cons_zero, Option.some.injEq] at hq; subst hq; exact hd'
          | succ m => exact a4 m q (by omega) (by simpa using hq)

/-! Non-vacuity: a request that runs and completes, polled in between. -/
example : (runs (fresh (.pending : Fut Nat String)) [.status, .start, .test, .complete 4, .cancel, .status]).status = .completed := rfl
example : Good (runs (fresh (.pending : Fut Nat String)) [.cancel, .start]) := runs_good _ _ (fresh_good _)
end Req
end Verif.Comm
