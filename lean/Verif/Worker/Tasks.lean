import Verif.Store.Lemmas
/-!
# C31 — asynchronous execution on a worker (backends/simp_worker/http.py:616-631, 684-764)

The handlers run on one event loop and do not await between reading and writing `async_tasks`, so each is one step.  A
thread of the execution pool runs `_do_execute_async`; every assignment it makes to the shared table is one step and
may interleave with anything.  Running the graph itself is one (possibly long) step whose outcome is fixed per
submission; `serde.dumps_b64` of the list of URIs it returns cannot raise.  `sub` (the number of the submission) and
`out` (what running it gives) are recorded for the specification only; no step reads them from the table.
-/
namespace Verif.Worker
open Verif.Store (lookup assign Keys lookup_assign_self lookup_assign_ne lookup_mem mem_lookup)

abbrev Id := String

/-- http.py:616-622 -/
inductive Status where
  | pending | running | success | failed
  deriving DecidableEq

/-- http.py:625-631; `R` is the encoded result, `E` the error text. -/
structure Task (R E : Type) where
  status : Status
  result : Option R
  error : Option E
  sub : Nat
  out : Except E R

/-- Where a pool thread is in `_do_execute_async` (http.py:687-699). -/
inductive Pc where
  | queued      -- not started
  | running     -- status set to RUNNING, executing the graph
  | succeeded   -- status set to SUCCESS, result not yet written
  | failing     -- status set to FAILED, error not yet written
  | finished
  deriving DecidableEq

structure Thread (R E : Type) where
  id : Id
  out : Except E R
  pc : Pc

/-- The worker: the table, the pool's threads by submission number, the number of submissions accepted. -/
structure State (R E : Type) where
  tasks : List (Id × Task R E)
  threads : Nat → Option (Thread R E)
  count : Nat

variable {R E : Type}

def active (t : Task R E) : Bool := t.status = .pending ∨ t.status = .running

/-- `async_tasks[id].<field> = …` (raises `KeyError` when there is no entry: then nothing changes). -/
def modify (id : Id) (f : Task R E → Task R E) (ts : List (Id × Task R E)) : List (Id × Task R E) :=
  match lookup id ts with
  | none => ts
  | some t => assign id (f t) ts

inductive Event (R E : Type) where
  | submit (id : Id) (decodes : Bool) (out : Except E R)   -- POST /exec/async
  | step (n : Nat)                                          -- the thread of submission n takes its next step

/-- The answers of POST /exec/async. -/
inductive Reply where
  | accepted | badRequest | conflict
  deriving DecidableEq

/-- http.py:743, the entry of a new submission. -/
def newTask (n : Nat) (out : Except E R) : Task R E :=
  { status := .pending, result := none, error := none, sub := n, out := out }

/-- http.py:718-745 -/
def submit (s : State R E) (id : Id) (decodes : Bool) (out : Except E R) : State R E × Reply :=
  if id = "" then (s, .badRequest)
  else if decodes = false then (s, .badRequest)
  else if s.tasks.any (fun e => active e.2) then (s, .conflict)
  else ({ tasks := assign id (newTask s.count out) s.tasks,
          threads := fun n => if n = s.count then some { id := id, out := out, pc := .queued } else s.threads n,
          count := s.count + 1 }, .accepted)

/-- The writes of `_do_execute_async` (http.py:687-699) and the next position. -/
def write (t : Thread R E) : (Task R E → Task R E) × Pc :=
  match t.pc with
  | .queued => (fun k => { k with status := .running }, .running)
  | .running => match t.out with
    | .ok _ => (fun k => { k with status := .success }, .succeeded)
    | .error _ => (fun k => { k with status := .failed }, .failing)
  | .succeeded => (fun k => { k with result := t.out.toOption }, .finished)
  | .failing => (fun k => { k with error := (match t.out with | .error e => some e | .ok _ => none) }, .finished)
  | .finished => (id, .finished)

def threadStep (s : State R E) (n : Nat) : State R E :=
  match s.threads n with
  | none => s
  | some t => { s with
      tasks := modify t.id (write t).1 s.tasks
      threads := fun m => if m = n then some { t with pc := (write t).2 } else s.threads m }

def exec (s : State R E) : Event R E → State R E
  | .submit id d out => (submit s id d out).1
  | .step n => threadStep s n

def run (s : State R E) (es : List (Event R E)) : State R E := es.foldl exec s

/-- A worker that has just started (http.py:685). -/
def init : State R E := { tasks := [], threads := fun _ => none, count := 0 }

/-- What GET /exec/{id}/status answers (http.py:747-764). -/
inductive Answer (R E : Type) where
  | notFound
  | state (s : Status) (result : Option R) (error : Option E)

def poll (s : State R E) (id : Id) : Answer R E :=
  match lookup id s.tasks with
  | none => .notFound
  | some t => .state t.status (if t.status = .success then t.result else none)
      (if t.status = .failed then t.error else none)

/-! ## Invariant -/

/-- What holds in every reachable state. -/
structure Inv (s : State R E) : Prop where
  keys : Keys s.tasks
  bound : ∀ n, s.count ≤ n → s.threads n = none
  /-- an active entry has its thread -/
  pend : ∀ id t, lookup id s.tasks = some t → t.status = .pending →
    s.threads t.sub = some { id := id, out := t.out, pc := .queued }
  runn : ∀ id t, lookup id s.tasks = some t → t.status = .running →
    s.threads t.sub = some { id := id, out := t.out, pc := .running }
  /-- a thread that has not finished running has its entry -/
  queued : ∀ n t, s.threads n = some t → t.pc = .queued →
    ∃ k, lookup t.id s.tasks = some k ∧ k.sub = n ∧ k.status = .pending
  running : ∀ n t, s.threads n = some t → t.pc = .running →
    ∃ k, lookup t.id s.tasks = some k ∧ k.sub = n ∧ k.status = .running
  one : ∀ id id' t t', lookup id s.tasks = some t → lookup id' s.tasks = some t' → active t = true →
    active t' = true → id = id'
  /-- a terminal status tells the truth about that submission -/
  succ : ∀ id t, lookup id s.tasks = some t → t.status = .success → ∃ r, t.out = .ok r
  fail : ∀ id t, lookup id s.tasks = some t → t.status = .failed → ∃ e, t.out = .error e
  /-- every entry has the thread of its submission, at a position that matches -/
  own : ∀ id t, lookup id s.tasks = some t → ∃ p, s.threads t.sub = some { id := id, out := t.out, pc := p } ∧
    (t.status = .success ↔ (p = .succeeded ∨ (p = .finished ∧ ∃ r, t.out = .ok r))) ∧
    (t.status = .failed ↔ (p = .failing ∨ (p = .finished ∧ ∃ e, t.out = .error e)))
  good : ∀ n t, s.threads n = some t → (t.pc = .succeeded → ∃ r, t.out = .ok r) ∧
    (t.pc = .failing → ∃ e, t.out = .error e)

theorem init_inv : Inv (init : State R E) := by
  refine ⟨by simp [Keys, init], ?_, ?_, ?_, ?_, ?_, ?_, ?_, ?_, ?_, ?_⟩ <;>
    simp [init, lookup]

theorem any_active {ts : List (Id × Task R E)} (hk : Keys ts) :
    ts.any (fun e => active e.2) = true ↔ ∃ id t, lookup id ts = some t ∧ active t = true := by
  rw [List.any_eq_true]
  constructor
  · rintro ⟨⟨id, t⟩, hm, ha⟩; exact ⟨id, t, mem_lookup hk hm, ha⟩
  · rintro ⟨id, t, hl, ha⟩; exact ⟨(id, t), lookup_mem hl, ha⟩

theorem active_iff (t : Task R E) : active t = true ↔ t.status = .pending ∨ t.status = .running := by
  simp [active]

theorem lookup_modify (id id' : Id) (f : Task R E → Task R E) (ts : List (Id × Task R E)) :
    lookup id' (modify id f ts) = if id' = id then (lookup id ts).map f else lookup id' ts := by
  unfold modify
  cases h : lookup id ts with
  | none => by_cases h1 : id' = id <;> simp [h1, h]
  | some t =>
    by_cases h1 : id' = id
    · subst h1; simp [lookup_assign_self]
    · simp [lookup_assign_ne h1, h1]

theorem modify_keys {id : Id} {f : Task R E → Task R E} {ts : List (Id × Task R E)} (h : Keys ts) :
    Keys (modify id f ts) := by
  unfold modify
  cases lookup id ts with
  | none => exact h
  | some t => exact h.assign

theorem submit_inv {s : State R E} (h : Inv s) (id : Id) (d : Bool) (out : Except E R) : Inv (submit s id d out).1 := by
  unfold submit
  split
  · exact h
  split
  · exact h
  split
  · exact h
  rename_i hno
  rw [any_active h.keys] at hno
  have hna : ∀ i t, lookup i s.tasks = some t → ¬ (t.status = .pending ∨ t.status = .running) := by
    intro i t hl ha; exact hno ⟨i, t, hl, (active_iff t).2 ha⟩
  -- every existing thread is past running
  have hth : ∀ n t, s.threads n = some t → t.pc ≠ .queued ∧ t.pc ≠ .running := by
    intro n t ht
    refine ⟨fun hq => ?_, fun hq => ?_⟩
    · obtain ⟨k, h1, _, h3⟩ := h.queued n t ht hq; exact hna _ k h1 (Or.inl h3)
    · obtain ⟨k, h1, _, h3⟩ := h.running n t ht hq; exact hna _ k h1 (Or.inr h3)
  have hlt : ∀ n t, s.threads n = some t → n ≠ s.count := by
    rintro n t ht rfl; rw [h.bound _ (Nat.le_refl _)] at ht; simp at ht
  have hsub : ∀ i t, lookup i s.tasks = some t → t.sub ≠ s.count := by
    intro i t hl; obtain ⟨p, hp, _⟩ := h.own i t hl; exact hlt _ _ hp
  have hlk : ∀ i t, lookup i (assign id (newTask s.count out) s.tasks) = some t →
      (i = id ∧ t = newTask s.count out) ∨
      (i ≠ id ∧ lookup i s.tasks = some t) := by
    intro i t hl
    by_cases hi : i = id
    · subst hi; rw [lookup_assign_self] at hl; exact Or.inl ⟨rfl, (Option.some.inj hl).symm⟩
    · rw [lookup_assign_ne hi] at hl; exact Or.inr ⟨hi, hl⟩
  constructor
  · exact h.keys.assign
  · intro n hn
    have hne : n ≠ s.count := by simp only at hn; omega
    simp only [hne, if_false]
    exact h.bound n (by simp only at hn; omega)
  · intro i t hl hs
    rcases hlk i t hl with ⟨rfl, rfl⟩ | ⟨hi, hl⟩
    · simp [newTask]
    · exact absurd (Or.inl hs) (hna i t hl)
  · intro i t hl hs
    rcases hlk i t hl with ⟨rfl, rfl⟩ | ⟨hi, hl⟩
    · simp [newTask] at hs
    · exact absurd (Or.inr hs) (hna i t hl)
  · intro n t ht hq
    by_cases hn : n = s.count
    · subst hn
      simp only [if_true, Option.some.injEq] at ht
      subst ht
      exact ⟨_, lookup_assign_self .., rfl, rfl⟩
    · simp only [hn, if_false] at ht
      exact absurd hq (hth n t ht).1
  · intro n t ht hq
    by_cases hn : n = s.count
    · subst hn
      simp only [if_true, Option.some.injEq] at ht
      subst ht
      simp at hq
    · simp only [hn, if_false] at ht
      exact absurd hq (hth n t ht).2
  · intro i i' t t' hl hl' ha ha'
    rw [active_iff] at ha ha'
    rcases hlk i t hl with ⟨rfl, rfl⟩ | ⟨hi, hl⟩
    · rcases hlk i' t' hl' with ⟨rfl, rfl⟩ | ⟨hi', hl'⟩
      · rfl
      · exact absurd ha' (hna i' t' hl')
    · exact absurd ha (hna i t hl)
  · intro i t hl hs
    rcases hlk i t hl with ⟨rfl, rfl⟩ | ⟨hi, hl⟩
    · simp [newTask] at hs
    · exact h.succ i t hl hs
  · intro i t hl hs
    rcases hlk i t hl with ⟨rfl, rfl⟩ | ⟨hi, hl⟩
    · simp [newTask] at hs
    · exact h.fail i t hl hs
  · intro i t hl
    rcases hlk i t hl with ⟨rfl, rfl⟩ | ⟨hi, hl⟩
    · exact ⟨.queued, by simp [newTask]⟩
    · obtain ⟨p, h1, h2⟩ := h.own i t hl
      exact ⟨p, by simp only [hsub i t hl, if_false]; exact h1, h2⟩
  · intro n t ht
    by_cases hn : n = s.count
    · subst hn
      simp only [if_true, Option.some.injEq] at ht
      subst ht
      simp
    · simp only [hn, if_false] at ht
      exact h.good n t ht

/-- What a write never touches. -/
theorem write_keeps (t : Thread R E) (k : Task R E) : ((write t).1 k).sub = k.sub ∧ ((write t).1 k).out = k.out := by
  obtain ⟨id, out, pc⟩ := t
  cases pc <;> cases out <;> simp [write]

/-- The last two writes of a thread do not change a status. -/
theorem write_late (t : Thread R E) (h1 : t.pc ≠ .queued) (h2 : t.pc ≠ .running) (k : Task R E) :
    ((write t).1 k).status = k.status ∧ ((write t).2 = .finished) := by
  obtain ⟨id, out, pc⟩ := t
  cases pc <;> cases out <;> simp_all [write]

theorem step_inv {s : State R E} (h : Inv s) (n : Nat) : Inv (threadStep s n) := by
  unfold threadStep
  cases ht : s.threads n with
  | none => exact h
  | some t =>
    simp only
    by_cases hearly : t.pc = .queued ∨ t.pc = .running
    · -- the entry of this thread is its own
      obtain ⟨k, hk, hkn, hks⟩ : ∃ k, lookup t.id s.tasks = some k ∧ k.sub = n ∧
          (t.pc = .queued ∧ k.status = .pending ∨ t.pc = .running ∧ k.status = .running) := by
        rcases hearly with hq | hq
        · obtain ⟨k, h1, h2, h3⟩ := h.queued n t ht hq; exact ⟨k, h1, h2, Or.inl ⟨hq, h3⟩⟩
        · obtain ⟨k, h1, h2, h3⟩ := h.running n t ht hq; exact ⟨k, h1, h2, Or.inr ⟨hq, h3⟩⟩
      obtain ⟨p, hp, _⟩ := h.own _ _ hk
      rw [hkn, ht] at hp
      have hout : k.out = t.out := by
        have := congrArg Thread.out (Option.some.inj hp); exact this.symm
      have hact : active k = true := by
        rw [active_iff]; rcases hks with h1 | h1
        · exact Or.inl h1.2
        · exact Or.inr h1.2
      -- other entries are not active, other threads are past running
      have hna : ∀ i x, lookup i s.tasks = some x → i ≠ t.id → ¬ (x.status = .pending ∨ x.status = .running) := by
        intro i x hl hi ha
        exact hi (h.one i t.id x k hl hk ((active_iff x).2 ha) hact)
      have hsub : ∀ i x, lookup i s.tasks = some x → i ≠ t.id → x.sub ≠ n := by
        intro i x hl hi hx
        obtain ⟨q, hq, _⟩ := h.own i x hl
        rw [hx, ht] at hq
        exact hi (congrArg Thread.id (Option.some.inj hq)).symm
      have hth : ∀ m x, s.threads m = some x → m ≠ n → x.pc ≠ .queued ∧ x.pc ≠ .running := by
        intro m x hx hm
        have aux : ∀ k', lookup x.id s.tasks = some k' → k'.sub = m →
            (k'.status = .pending ∨ k'.status = .running) → False := by
          intro k' h1 h2 h3
          have hid : x.id = t.id := h.one _ _ k' k h1 hk ((active_iff _).2 h3) hact
          rw [hid, hk] at h1
          have : k = k' := Option.some.inj h1
          exact hm (by rw [← h2, ← this, hkn])
        refine ⟨fun hq => ?_, fun hq => ?_⟩
        · obtain ⟨k', h1, h2, h3⟩ := h.queued m x hx hq; exact aux k' h1 h2 (Or.inl h3)
        · obtain ⟨k', h1, h2, h3⟩ := h.running m x hx hq; exact aux k' h1 h2 (Or.inr h3)
      -- a lookup in the new table
      have hlk : ∀ i x, lookup i (modify t.id (write t).1 s.tasks) = some x →
          (i = t.id ∧ x = (write t).1 k) ∨ (i ≠ t.id ∧ lookup i s.tasks = some x) := by
        intro i x hl
        rw [lookup_modify] at hl
        by_cases hi : i = t.id
        · rw [if_pos hi, hk] at hl; exact Or.inl ⟨hi, (Option.some.inj hl).symm⟩
        · rw [if_neg hi] at hl; exact Or.inr ⟨hi, hl⟩
      have hkeep := write_keeps t k
      -- the three possible writes
      have hw : (t.pc = .queued ∧ (write t).2 = .running ∧ ((write t).1 k).status = .running) ∨
          (t.pc = .running ∧ (∃ r, t.out = .ok r) ∧ (write t).2 = .succeeded ∧ ((write t).1 k).status = .success) ∨
          (t.pc = .running ∧ (∃ e, t.out = .error e) ∧ (write t).2 = .failing ∧ ((write t).1 k).status = .failed) := by
        obtain ⟨id, out, pc⟩ := t
        rcases hearly with hq | hq
        · simp only at hq; subst hq; exact Or.inl ⟨rfl, rfl, rfl⟩
        · simp only at hq; subst hq
          cases out with
          | ok r => exact Or.inr (Or.inl ⟨rfl, ⟨r, rfl⟩, rfl, rfl⟩)
          | error e => exact Or.inr (Or.inr ⟨rfl, ⟨e, rfl⟩, rfl, rfl⟩)
      constructor
      · exact modify_keys h.keys
      · intro m hm
        have : m ≠ n := by
          rintro rfl; rw [h.bound m hm] at ht; simp at ht
        simp only [this, if_false]; exact h.bound m hm
      · intro i x hl hs
        rcases hlk i x hl with ⟨hi, hx⟩ | ⟨hi, hl⟩
        · subst hx
          rcases hw with h1 | h1 | h1
          · rw [h1.2.2] at hs; simp at hs
          · rw [h1.2.2.2] at hs; simp at hs
          · rw [h1.2.2.2] at hs; simp at hs
        · exact absurd (Or.inl hs) (hna i x hl hi)
      · intro i x hl hs
        rcases hlk i x hl with ⟨hi, hx⟩ | ⟨hi, hl⟩
        · subst hx
          rcases hw with h1 | h1 | h1
          · simp only [hkeep.1, hkn, if_true, Option.some.injEq, hkeep.2]
            rw [h1.2.1, hi, hout]
          · rw [h1.2.2.2] at hs; simp at hs
          · rw [h1.2.2.2] at hs; simp at hs
        · exact absurd (Or.inr hs) (hna i x hl hi)
      · intro m x hx hq
        by_cases hm : m = n
        · subst hm
          simp only [if_true, Option.some.injEq] at hx
          subst hx
          simp only at hq
          rcases hw with h1 | h1 | h1
          · rw [h1.2.1] at hq; simp at hq
          · rw [h1.2.2.1] at hq; simp at hq
          · rw [h1.2.2.1] at hq; simp at hq
        · simp only [hm, if_false] at hx
          exact absurd hq (hth m x hx hm).1
      · intro m x hx hq
        by_cases hm : m = n
        · subst hm
          simp only [if_true, Option.some.injEq] at hx
          subst hx
          simp only at hq
          rcases hw with h1 | h1 | h1
          · refine ⟨(write t).1 k, ?_, by rw [hkeep.1, hkn], h1.2.2⟩
            rw [lookup_modify]; simp [hk]
          · rw [h1.2.2.1] at hq; simp at hq
          · rw [h1.2.2.1] at hq; simp at hq
        · simp only [hm, if_false] at hx
          exact absurd hq (hth m x hx hm).2
      · intro i i' x x' hl hl' ha ha'
        rw [active_iff] at ha ha'
        rcases hlk i x hl with ⟨hi, hx⟩ | ⟨hi, hl⟩
        · rcases hlk i' x' hl' with ⟨hi', hx'⟩ | ⟨hi', hl'⟩
          · rw [hi, hi']
          · exact absurd ha' (hna i' x' hl' hi')
        · exact absurd ha (hna i x hl hi)
      · intro i x hl hs
        rcases hlk i x hl with ⟨hi, hx⟩ | ⟨hi, hl⟩
        · subst hx
          rw [hkeep.2, hout]
          rcases hw with h1 | h1 | h1
          · rw [h1.2.2] at hs; simp at hs
          · exact h1.2.1
          · rw [h1.2.2.2] at hs; simp at hs
        · exact h.succ i x hl hs
      · intro i x hl hs
        rcases hlk i x hl with ⟨hi, hx⟩ | ⟨hi, hl⟩
        · subst hx
          rw [hkeep.2, hout]
          rcases hw with h1 | h1 | h1
          · rw [h1.2.2] at hs; simp at hs
          · rw [h1.2.2.2] at hs; simp at hs
          · exact h1.2.1
        · exact h.fail i x hl hs
      · intro i x hl
        rcases hlk i x hl with ⟨hi, hx⟩ | ⟨hi, hl⟩
        · subst hx
          refine ⟨(write t).2, ?_, ?_⟩
          · simp only [hkeep.1, hkn, if_true, Option.some.injEq, hkeep.2]; rw [hi, hout]
          · rcases hw with h1 | h1 | h1
            · rw [h1.2.1, h1.2.2]; simp
            · rw [h1.2.2.1, h1.2.2.2]; simp
            · rw [h1.2.2.1, h1.2.2.2]; simp
        · obtain ⟨p, h1, h2⟩ := h.own i x hl
          exact ⟨p, by simp only [hsub i x hl hi, if_false]; exact h1, h2⟩
      · intro m x hx
        by_cases hm : m = n
        · subst hm
          simp only [if_true, Option.some.injEq] at hx
          subst hx
          simp only
          rcases hw with h1 | h1 | h1
          · rw [h1.2.1]; simp
          · rw [h1.2.2.1]; simpa using h1.2.1
          · rw [h1.2.2.1]; simpa using h1.2.1
        · simp only [hm, if_false] at hx
          exact h.good m x hx
    · -- a late write: statuses do not change, the thread ends
      have h1 : t.pc ≠ .queued := fun hq => hearly (Or.inl hq)
      have h2 : t.pc ≠ .running := fun hq => hearly (Or.inr hq)
      have hlate := fun k => write_late t h1 h2 k
      have hlk : ∀ i x, lookup i (modify t.id (write t).1 s.tasks) = some x →
          ∃ y, lookup i s.tasks = some y ∧ x.status = y.status ∧ x.sub = y.sub ∧ x.out = y.out := by
        intro i x hl
        rw [lookup_modify] at hl
        by_cases hi : i = t.id
        · rw [if_pos hi] at hl
          obtain ⟨y, hy, rfl⟩ := Option.map_eq_some_iff.1 hl
          exact ⟨y, by rw [hi]; exact hy, (hlate y).1, (write_keeps t y).1, (write_keeps t y).2⟩
        · rw [if_neg hi] at hl; exact ⟨x, hl, rfl, rfl, rfl⟩
      have hlk' : ∀ i y, lookup i s.tasks = some y → ∃ x, lookup i (modify t.id (write t).1 s.tasks) = some x ∧
          x.status = y.status ∧ x.sub = y.sub := by
        intro i y hy
        rw [lookup_modify]
        by_cases hi : i = t.id
        · subst hi; rw [if_pos rfl, hy]; exact ⟨_, rfl, (hlate y).1, (write_keeps t y).1⟩
        · rw [if_neg hi]; exact ⟨y, hy, rfl, rfl⟩
      have hfin : (write t).2 = .finished := by
        obtain ⟨id, out, pc⟩ := t
        cases pc <;> simp_all [write]
      constructor
      · exact modify_keys h.keys
      · intro m hm
        have : m ≠ n := by
          rintro rfl; rw [h.bound m hm] at ht; simp at ht
        simp only [this, if_false]; exact h.bound m hm
      · intro i x hl hs
        obtain ⟨y, hy, e1, e2, e3⟩ := hlk i x hl
        have := h.pend i y hy (by rw [← e1, hs])
        have hn : x.sub ≠ n := by
          intro hx
          rw [← e2, hx, ht] at this
          exact h1 (congrArg Thread.pc (Option.some.inj this))
        simp only [hn, if_false]
        rw [e2, this, e3]
      · intro i x hl hs
        obtain ⟨y, hy, e1, e2, e3⟩ := hlk i x hl
        have := h.runn i y hy (by rw [← e1, hs])
        have hn : x.sub ≠ n := by
          intro hx
          rw [← e2, hx, ht] at this
          exact h2 (congrArg Thread.pc (Option.some.inj this))
        simp only [hn, if_false]
        rw [e2, this, e3]
      · intro m x hx hq
        by_cases hm : m = n
        · subst hm
          simp only [if_true, Option.some.injEq] at hx
          subst hx
          simp only [hfin] at hq; simp at hq
        · simp only [hm, if_false] at hx
          obtain ⟨k, a1, a2, a3⟩ := h.queued m x hx hq
          obtain ⟨k', b1, b2, b3⟩ := hlk' _ k a1
          exact ⟨k', b1, by rw [b3, a2], by rw [b2, a3]⟩
      · intro m x hx hq
        by_cases hm : m = n
        · subst hm
          simp only [if_true, Option.some.injEq] at hx
          subst hx
          simp only [hfin] at hq; simp at hq
        · simp only [hm, if_false] at hx
          obtain ⟨k, a1, a2, a3⟩ := h.running m x hx hq
          obtain ⟨k', b1, b2, b3⟩ := hlk' _ k a1
          exact ⟨k', b1, by rw [b3, a2], by rw [b2, a3]⟩
      · intro i i' x x' hl hl' ha ha'
        obtain ⟨y, hy, e1, _, _⟩ := hlk i x hl
        obtain ⟨y', hy', e1', _, _⟩ := hlk i' x' hl'
        refine h.one i i' y y' hy hy' ?_ ?_
        · rw [active_iff] at ha ⊢; rw [← e1]; exact ha
        · rw [active_iff] at ha' ⊢; rw [← e1']; exact ha'
      · intro i x hl hs
        obtain ⟨y, hy, e1, _, e3⟩ := hlk i x hl
        rw [e3]; exact h.succ i y hy (by rw [← e1, hs])
      · intro i x hl hs
        obtain ⟨y, hy, e1, _, e3⟩ := hlk i x hl
        rw [e3]; exact h.fail i y hy (by rw [← e1, hs])
      · intro i x hl
        obtain ⟨y, hy, e1, e2, e3⟩ := hlk i x hl
        obtain ⟨p, q1, q2, q3⟩ := h.own i y hy
        by_cases hn : y.sub = n
        · rw [hn, ht] at q1
          have q1 := Option.some.inj q1
          subst q1
          refine ⟨.finished, ?_, ?_⟩
          · simp only [e2, hn, if_true, Option.some.injEq, hfin, e3]
          · rw [e1, e3]
            have hg := h.good n _ ht
            simp only at h1 h2 q2 q3 hg
            cases p with
            | queued => exact absurd rfl h1
            | running => exact absurd rfl h2
            | succeeded =>
              obtain ⟨r, hr⟩ := hg.1 rfl
              constructor
              · simp [q2, hr]
              · simp [q3, hr]
            | failing =>
              obtain ⟨r, hr⟩ := hg.2 rfl
              constructor
              · simp [q2, hr]
              · simp [q3, hr]
            | finished => exact ⟨by simpa using q2, by simpa using q3⟩
        · refine ⟨p, ?_, by rw [e1, e3]; exact ⟨q2, q3⟩⟩
          rw [e2]; simp only [hn, if_false]; rw [q1, e3]
      · intro m x hx
        by_cases hm : m = n
        · subst hm
          simp only [if_true, Option.some.injEq] at hx
          subst hx
          simp [hfin]
        · simp only [hm, if_false] at hx
          exact h.good m x hx

theorem exec_inv {s : State R E} (h : Inv s) (e : Event R E) : Inv (exec s e) := by
  cases e with
  | submit id d out => exact submit_inv h id d out
  | step n => exact step_inv h n

theorem run_inv (es : List (Event R E)) {s : State R E} (h : Inv s) : Inv (run s es) := by
  induction es generalizing s with
  | nil => exact h
  | cons e es ih => exact ih (exec_inv h e)

end Verif.Worker
