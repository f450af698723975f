/-!
# C133 — Stopping a worker (simp_worker/http.py:556-574, 687-745, 936-946)

A worker process that is asked to stop no longer accepts connections, then closes its communicator, and then waits for its thread pool.
Tasks submitted with `/exec/async`, and those of `/exec` whose client has gone, may be queued or running all that time. That a second
asynchronous task is refused while one is running (http.py:734-741) is left out: the pool holds any tasks.
-/
namespace Verif.Driver.Stop

/-- What a task does next, as far as stopping matters: something local, a send to another worker, or a receive of the message with this
key. That keys are read once only is not modelled. (/repo/mplang/backends/simp_worker/http.py:292-327, 491-535) -/
inductive Op where
  | local
  | send
  | recv (key : Nat)

/-- A task in the pool (`AsyncTaskState`): queued, running, or ended, with success or with an error.
(/repo/mplang/backends/simp_worker/http.py:687-703) -/
inductive Task where
  | queued (ops : List Op)
  | running (ops : List Op)
  | ended (success : Bool)

/-- The stages of the process: serving; no longer accepting connections; communicator shut down; pool shut down.
(/repo/mplang/backends/simp_worker/http.py:940-946) -/
inductive Stage where
  | serving | leaving | closed | gone
  deriving DecidableEq

/-- The worker: its tasks in the order of submission, the messages that have arrived, the stage. -/
structure Worker where
  tasks : List Task
  arrived : Nat → Bool
  stage : Stage

/-- What can happen: a request is accepted; a thread takes task `i`, performs its next operation, or gives up waiting for a message; a message
arrives; the process goes to the next stage. (/repo/mplang/backends/simp_worker/http.py:687-703, 936-946) -/
inductive Ev where
  | accept (ops : List Op)
  | start (i : Nat)
  | op (i : Nat)
  | timeout (i : Nat)
  | arrive (key : Nat)
  | next

/-- is the task waiting for a thread? -/
def Task.isQueued : Task → Bool
  | .queued _ => true
  | _ => false
/-- does the task occupy a thread? -/
def Task.isRunning : Task → Bool
  | .running _ => true
  | _ => false
/-- has the task ended? -/
def Task.isEnded : Task → Bool
  | .ended _ => true
  | _ => false

/-- replace the state of a task -/
def Worker.put (w : Worker) (i : Nat) (t : Task) : Worker := { w with tasks := w.tasks.set i t }

/-- Can a message still be sent? Afterwards `submit` raises RuntimeError, which ends the task. (/repo/mplang/backends/simp_worker/http.py:323, 570-574) -/
def Stage.sends : Stage → Bool
  | .serving | .leaving => true
  | .closed | .gone => false

/-- One step. The pool has two threads and a first-in first-out queue; requests and messages come in only while the process is serving; the
pool is gone when all tasks have ended (`shutdown(wait=True)` cancels nothing). (/repo/mplang/backends/simp_worker/http.py:687-703, 936-946) -/
def step (w : Worker) : Ev → Option Worker
  | .accept ops => if w.stage = .serving then some { w with tasks := w.tasks ++ [.queued ops] } else none
  | .start i => match w.tasks[i]? with
    | some (.queued ops) =>
      if (w.tasks.filter Task.isRunning).length < 2 ∧ (w.tasks.take i).all (fun t => !t.isQueued) = true then some (w.put i (.running ops)) else none
    | _ => none
  | .op i => match w.tasks[i]? with
    | some (.running []) => some (w.put i (.ended true))
    | some (.running (.local :: ops)) => some (w.put i (.running ops))
    | some (.running (.send :: ops)) => some (w.put i (if w.stage.sends then .running ops else .ended false))
    | some (.running (.recv k :: ops)) => if w.arrived k then some (w.put i (.running ops)) else none
    | _ => none
  | .timeout i => match w.tasks[i]? with
    | some (.running (.recv k :: _)) => if w.arrived k then none else some (w.put i (.ended false))
    | _ => none
  | .arrive k => if w.stage = .serving then some { w with arrived := fun j => if j = k then true else w.arrived j } else none
  | .next => match w.stage with
    | .serving => some { w with stage := .leaving }
    | .leaving => some { w with stage := .closed }
    | .closed => if w.tasks.all Task.isEnded = true then some { w with stage := .gone } else none
    | .gone => none

/-- a sequence of steps -/
def run : Worker → List Ev → Option Worker
  | w, [] => some w
  | w, e :: es => match step w e with
    | none => none
    | some v => run v es

/-! ## Specification -/

/-- Can the operation succeed after the communicator has been shut down? -/
def Fine (arrived : Nat → Bool) : Op → Prop
  | .local => True
  | .send => False
  | .recv k => arrived k = true

/-- The operations a task still has to do. -/
def rest : Task → Option (List Op)
  | .queued ops => some ops
  | .running ops => some ops
  | .ended _ => none

/-! ## Proofs -/

/-- what is known of a task with these operations left at the shutdown of the communicator -/
def Follows (arrived : Nat → Bool) (ops : List Op) : Task → Prop
  | .queued r => (∀ o ∈ r, Fine arrived o) ↔ ∀ o ∈ ops, Fine arrived o
  | .running r => (∀ o ∈ r, Fine arrived o) ↔ ∀ o ∈ ops, Fine arrived o
  | .ended b => b = true ↔ ∀ o ∈ ops, Fine arrived o

theorem step_follows {w v : Worker} {e : Ev} (h : step w e = some v) (hs : w.stage.sends = false) :
    v.stage.sends = false ∧ v.arrived = w.arrived ∧
      ∀ (i : Nat) ops t, w.tasks[i]? = some t → Follows w.arrived ops t → ∃ u, v.tasks[i]? = some u ∧ Follows w.arrived ops u := by
  have hput : ∀ (j : Nat) (t' t0 : Task), w.tasks[j]? = some t0 → (∀ ops, Follows w.arrived ops t0 → Follows w.arrived ops t') → ∀ (i : Nat) ops t, w.tasks[i]? = some t →
      Follows w.arrived ops t → ∃ u, (w.put j t').tasks[i]? = some u ∧ Follows w.arrived ops u := by
    intro j t' t0 h0 hf i ops t ht hft
    simp only [Worker.put]
    by_cases hij : j = i
    · subst hij
      rw [h0] at ht; cases ht
      refine ⟨t', ?_, hf ops hft⟩
      rw [List.getElem?_set_self (List.getElem?_eq_some_iff.1 h0).1]
    · exact ⟨t, by rw [List.getElem?_set_ne hij]; exact ht, hft⟩
  have hne : w.stage ≠ .serving := by intro he; rw [he] at hs; cases hs
  cases e with
  | accept ops => simp only [step, if_neg hne] at h; cases h
  | arrive k => simp only [step, if_neg hne] at h; cases h
  | start j =>
    simp only [step] at h
    split at h
    · next ops ht =>
      split at h
      · cases h
        exact ⟨hs, rfl, hput j _ _ ht (fun _ h => h)⟩
      · cases h
    · cases h
  | op j =>
    simp only [step] at h
    split at h
    · next ht => cases h; exact ⟨hs, rfl, hput j _ _ ht (fun ops h => by simpa [Follows] using h)⟩
    · next ops ht =>
      cases h
      exact ⟨hs, rfl, hput j _ _ ht (fun _ h => by simpa [Follows, Fine] using h)⟩
    · next ops ht =>
      cases h
      refine ⟨hs, rfl, hput j _ _ ht (fun os h => ?_)⟩
      rw [hs]
      simp only [Bool.false_eq_true, if_false]
      simpa [Follows, Fine] using h
    · next k ops ht =>
      split at h
      · next hk =>
        cases h
        exact ⟨hs, rfl, hput j _ _ ht (fun _ h => by simpa [Follows, Fine, hk] using h)⟩
      · cases h
    · cases h
  | timeout j =>
    simp only [step] at h
    split at h
    · next k ops ht =>
      split at h
      · cases h
      · next hk =>
        cases h
        exact ⟨hs, rfl, hput j _ _ ht (fun _ h => by simpa [Follows, Fine, hk] using h)⟩
    · cases h
  | next =>
    simp only [step] at h
    split at h
    · next he => exact absurd he hne
    · next he => rw [he] at hs; cases hs
    · split at h
      · cases h; exact ⟨rfl, rfl, fun i ops t a b => ⟨t, a, b⟩⟩
      · cases h
    · cases h

theorem run_follows {w v : Worker} {es : List Ev} (h : run w es = some v) (hs : w.stage.sends = false) :
    v.arrived = w.arrived ∧ ∀ (i : Nat) ops t, w.tasks[i]? = some t → Follows w.arrived ops t → ∃ u, v.tasks[i]? = some u ∧ Follows w.arrived ops u := by
  induction es generalizing w with
  | nil => cases h; exact ⟨rfl, fun i ops t a b => ⟨t, a, b⟩⟩
  | cons e es ih =>
    simp only [run] at h
    split at h
    · cases h
    · next x hx =>
      obtain ⟨h1, h2, h3⟩ := step_follows hx hs
      obtain ⟨h4, h5⟩ := ih h h1
      refine ⟨h4.trans h2, fun i ops t a b => ?_⟩
      obtain ⟨u, hu, hf⟩ := h3 i ops t a b
      rw [h2] at h5
      exact h5 i ops u hu hf

theorem stage_gone {w v : Worker} {es : List Ev} (h : run w es = some v) (hw : w.stage ≠ .gone) (hv : v.stage = .gone) :
    v.tasks.all Task.isEnded = true := by
  have hall : ∀ {es : List Ev} {w : Worker}, w.stage = .gone → w.tasks.all Task.isEnded = true → run w es = some v → v.tasks.all Task.isEnded = true := by
    intro es
    induction es with
    | nil => intro w _ h2 h; cases h; exact h2
    | cons e es ih =>
      intro w h1 h2 h
      have hnone : step w e = none := by
        have hend : ∀ i : Nat, match w.tasks[i]? with | some t => Task.isEnded t = true | none => True := by
          intro i
          split
          · next t ht => exact List.all_eq_true.1 h2 t (List.mem_of_getElem? ht)
          · trivial
        cases e with
        | accept ops => simp [step, h1]
        | arrive k => simp [step, h1]
        | next => simp [step, h1]
        | start i => have := hend i; simp only [step]; split <;> simp_all [Task.isEnded]
        | op i => have := hend i; simp only [step]; split <;> simp_all [Task.isEnded]
        | timeout i => have := hend i; simp only [step]; split <;> simp_all [Task.isEnded]
      simp only [run, hnone] at h
      cases h
  induction es generalizing w with
  | nil => cases h; exact absurd hv hw
  | cons e es ih =>
    simp only [run] at h
    split at h
    · cases h
    · next x hx =>
      by_cases hg : x.stage = .gone
      · refine hall hg ?_ h
        cases e with
        | next =>
          simp only [step] at hx
          split at hx
          · cases hx; cases hg
          · cases hx; cases hg
          · split at hx
            · next ha => cases hx; exact ha
            · cases hx
          · cases hx
        | _ =>
          exfalso
          simp only [step] at hx
          split at hx <;> (try split at hx) <;> (try cases hx) <;> exact hw hg
      · exact ih h hg

/-- **C133** When a worker has stopped, a task that had not ended at the shutdown of its communicator has ended, and with success exactly if
it had nothing more to send and all messages it still had to receive had arrived. -/
theorem stop_outcome {w v : Worker} {es : List Ev} (h : run w es = some v) (hw : w.stage = .closed) (hv : v.stage = .gone)
    (i : Nat) (t : Task) (ops : List Op) (ht : w.tasks[i]? = some t) (hr : rest t = some ops) :
    ∃ b, v.tasks[i]? = some (.ended b) ∧ (b = true ↔ ∀ o ∈ ops, Fine w.arrived o) := by
  have hf : Follows w.arrived ops t := by cases t <;> simp_all [rest, Follows]
  obtain ⟨u, hu, hfu⟩ := (run_follows h (by rw [hw]; rfl)).2 i ops t ht hf
  have := List.all_eq_true.1 (stage_gone h (by rw [hw]; decide) hv) u (List.mem_of_getElem? hu)
  cases u with
  | ended b => exact ⟨b, hu, hfu⟩
  | queued _ => cases this
  | running _ => cases this

/-- A queued task without messages and a running one that has to answer. -/
example : ∃ (w v : Worker) (es : List Ev), run w es = some v ∧ w.stage = .closed ∧ v.stage = .gone ∧
    v.tasks = [.ended false, .ended true] ∧ w.tasks = [.running [.recv 0, .send], .queued [.local]] :=
  ⟨⟨[.running [.recv 0, .send], .queued [.local]], fun _ => true, .closed⟩, _, [.start 1, .op 0, .op 1, .op 0, .op 1, .next], rfl, rfl, rfl, rfl, rfl⟩

/-- **C133** (violated) Tasks that were accepted are not finished: a task that is running when the communicator is shut down fails at its next
send. -/
theorem stop_loses_tasks_violated : ∃ (w v : Worker) (es : List Ev), w = ⟨[], fun _ => false, .serving⟩ ∧
    run w (.accept [.send] :: es) = some v ∧ v.stage = .gone ∧ v.tasks = [.ended false] :=
  ⟨_, _, [.start 0, .next, .next, .op 0, .next], rfl, rfl, rfl, rfl⟩

/-- work left: operations, and one each for taking and ending the task -/
def work : Task → Nat
  | .queued ops => ops.length + 2
  | .running ops => ops.length + 1
  | .ended _ => 0

/-- **C133** Stopping ends: as long as the pool is not gone some step is possible, without waiting
for requests or messages. -/
theorem stop_progress (w : Worker) (hw : w.stage ≠ .gone) : ∃ e, (step w e).isSome = true ∧ (∀ ops, e ≠ .accept ops) ∧ ∀ k, e ≠ .arrive k := by
  by_cases hall : w.tasks.all Task.isEnded = true
  · refine ⟨.next, ?_, (by intro ops h; cases h), (by intro k h; cases h)⟩
    cases hst : w.stage with
    | gone => exact absurd hst hw
    | closed => simp [step, hst, hall]
    | serving => simp [step, hst]
    | leaving => simp [step, hst]
  · by_cases hrun : ∃ t ∈ w.tasks, t.isRunning = true
    · obtain ⟨t, hm, ht⟩ := hrun
      obtain ⟨i, hi⟩ := List.mem_iff_getElem?.1 hm
      cases t with
      | queued _ => cases ht
      | ended _ => cases ht
      | running ops =>
        cases ops with
        | nil => exact ⟨.op i, by simp [step, hi], (by intro ops h; cases h), (by intro k h; cases h)⟩
        | cons o ops =>
          cases o with
          | «local» => exact ⟨.op i, by simp [step, hi], (by intro ops h; cases h), (by intro k h; cases h)⟩
          | send => exact ⟨.op i, by simp [step, hi], (by intro ops h; cases h), (by intro k h; cases h)⟩
          | recv k =>
            cases hk : w.arrived k with
            | true => exact ⟨.op i, by simp [step, hi, hk], (by intro ops h; cases h), (by intro k h; cases h)⟩
            | false => exact ⟨.timeout i, by simp [step, hi, hk], (by intro ops h; cases h), (by intro k h; cases h)⟩
    · have hnone : w.tasks.filter Task.isRunning = [] := by
        rw [List.filter_eq_nil_iff]; exact fun t hm ht => hrun ⟨t, hm, ht⟩
      have hq : ∃ t ∈ w.tasks, t.isQueued = true := by
        simp only [List.all_eq_true] at hall
        simp only [Classical.not_forall] at hall
        obtain ⟨t, hm, ht⟩ := hall
        refine ⟨t, hm, ?_⟩
        cases t with
        | queued _ => rfl
        | running _ => exact absurd ⟨_, hm, rfl⟩ hrun
        | ended _ => exact absurd rfl ht
      have first : ∀ l : List Task, (∃ t ∈ l, t.isQueued = true) → ∃ i ops, l[i]? = some (.queued ops) ∧ (l.take i).all (fun t => !t.isQueued) = true := by
        intro l
        induction l with
        | nil => rintro ⟨_, h, _⟩; cases h
        | cons t l ih =>
          intro hex
          cases t with
          | queued ops => exact ⟨0, ops, rfl, rfl⟩
          | running _ =>
            obtain ⟨i, ops, h1, h2⟩ := ih (by obtain ⟨u, hu, hq⟩ := hex; cases hu with | head => cases hq | tail _ hu => exact ⟨u, hu, hq⟩)
            exact ⟨i + 1, ops, h1, by simpa [Task.isQueued] using h2⟩
          | ended _ =>
            obtain ⟨i, ops, h1, h2⟩ := ih (by obtain ⟨u, hu, hq⟩ := hex; cases hu with | head => cases hq | tail _ hu => exact ⟨u, hu, hq⟩)
            exact ⟨i + 1, ops, h1, by simpa [Task.isQueued] using h2⟩
      obtain ⟨i, ops, h1, h2⟩ := first w.tasks hq
      refine ⟨.start i, ?_, (by intro ops h; cases h), (by intro k h; cases h)⟩
      have h2' : ∀ x ∈ w.tasks.take i, x.isQueued = false := by simpa [List.all_eq_true] using h2
      simp only [step, h1]
      rw [if_pos ⟨by rw [hnone]; decide, h2⟩]
      rfl

/-- work left in the whole worker -/
def total (w : Worker) : Nat := (w.tasks.map work).sum + match w.stage with
  | .serving => 3
  | .leaving => 2
  | .closed => 1
  | .gone => 0

theorem sum_set {l : List Task} {i : Nat} {t u : Task} (h : l[i]? = some t) :
    ((l.set i u).map work).sum + work t = (l.map work).sum + work u := by
  induction l generalizing i with
  | nil => cases h
  | cons x l ih =>
    cases i with
    | zero => simp only [List.getElem?_cons_zero, Option.some.injEq] at h; subst h; simp only [List.set_cons_zero, List.map_cons, List.sum_cons]; omega
    | succ i => have := ih (i := i) h; simp only [List.set_cons_succ, List.map_cons, List.sum_cons]; omega

/-- **C133** Once the process no longer accepts connections, every step uses up some of the work left, so the stop takes at most that many
steps. -/
theorem stop_bounded {w v : Worker} {es : List Ev} (h : run w es = some v) (hw : w.stage ≠ .serving) : es.length + total v ≤ total w := by
  have key : ∀ {w v : Worker} {e : Ev}, step w e = some v → w.stage ≠ .serving → v.stage ≠ .serving ∧ 1 + total v ≤ total w := by
    intro w v e h hw
    have hput : ∀ (i : Nat) (t u : Task), w.tasks[i]? = some t → work u < work t → (w.put i u).stage ≠ .serving ∧ 1 + total (w.put i u) ≤ total w := by
      intro i t u ht hlt
      refine ⟨hw, ?_⟩
      have := sum_set (u := u) ht
      simp only [total, Worker.put]
      omega
    cases e with
    | accept ops => simp only [step, if_neg hw] at h; cases h
    | arrive k => simp only [step, if_neg hw] at h; cases h
    | start j =>
      simp only [step] at h
      split at h
      · next ops ht =>
        split at h
        · cases h; exact hput j _ _ ht (by simp [work])
        · cases h
      · cases h
    | op j =>
      simp only [step] at h
      split at h
      · next ht => cases h; exact hput j _ _ ht (by simp [work])
      · next ops ht => cases h; exact hput j _ _ ht (by simp [work])
      · next ops ht =>
        cases h
        refine hput j _ _ ht ?_
        split <;> simp [work]
      · next k ops ht =>
        split at h
        · cases h; exact hput j _ _ ht (by simp [work])
        · cases h
      · cases h
    | timeout j =>
      simp only [step] at h
      split at h
      · next k ops ht =>
        split at h
        · cases h
        · cases h; exact hput j _ _ ht (by simp [work])
      · cases h
    | next =>
      simp only [step] at h
      split at h
      · next he => exact absurd he hw
      · next he => cases h; refine ⟨by simp, ?_⟩; simp only [total, he]; omega
      · next he =>
        split at h
        · cases h; refine ⟨by simp, ?_⟩; simp only [total, he]; omega
        · cases h
      · cases h
  induction es generalizing w with
  | nil => cases h; simp
  | cons e es ih =>
    simp only [run] at h
    split at h
    · cases h
    · next x hx =>
      obtain ⟨h1, h2⟩ := key hx hw
      have := ih h h1
      simp only [List.length_cons]
      omega

end Verif.Driver.Stop
