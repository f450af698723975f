/-!
# The sends of a worker (backends/simp_worker/http.py:160-330, 464-489, 551-574, 665-682): property C114

`HttpCommunicator.send` hands the transfer to a pool of `world_size` threads and returns; `_pending_sends` is the set of
futures `wait_pending_sends` looks at when a request has been evaluated.  The model is a transition system whose steps are the
atomic actions of the threads involved: the threads of a request (submit, add to the set, install the callback, copy the set,
wait for one future), the threads of the pool (take the oldest job, finish it, run the callbacks of its future) and the peer
(store the message).  Every interleaving of these steps is an event list.
-/
namespace Verif.Comm.Sends

/-- how a transfer ended in the sending thread (http.py:368-489): the response was a success; the call raised inside the
`try` (no connection, timeout, error status); the payload or the address could not be built (raised before the `try`) -/
inductive Outcome where
  | sent | refused | unbuilt
  deriving DecidableEq, Repr

/-- where a future is: in the queue of the pool, run by one of its threads, finished -/
inductive Phase where
  | queued | running | over (o : Outcome)
  deriving DecidableEq, Repr

/-- how far `send` has come for a future (http.py:323-327): submitted, in the set, callback installed, callback run -/
inductive Reg where
  | submitted | added | hooked | cleaned
  deriving DecidableEq, Repr

/-- one call of `send`: the request that made it, the size of its body, and the two states above -/
structure Job where
  req : Nat
  size : Nat
  reg : Reg
  ph : Phase
  deriving DecidableEq, Repr

/-- a request in `_do_execute` (http.py:665-682): evaluating; inside `wait_pending_sends` with the futures still to be waited
for; returned (`gaveUp`: one of the waits ran into its timeout); left with an exception -/
inductive ReqSt where
  | working | waiting (todo : List Nat) (gaveUp : Bool) | ended (gaveUp : Bool) | failed
  deriving DecidableEq, Repr

/-- the communicator (http.py:265-290): the futures in submission order, `_pending_sends`, the messages the peers have stored,
the counters of `CommStats` (http.py:160-202; the durations are not modelled) and the requests being executed -/
structure St where
  jobs : List Job
  pending : List Nat
  mail : List Nat
  messagesSent : Nat
  bytesSent : Nat
  sendErrors : Nat
  reqs : Nat → ReqSt

/-- a new communicator (http.py:265-290, 167-172) -/
def init : St := ⟨[], [], [], 0, 0, 0, fun _ => .working⟩

/-- the atomic actions -/
inductive Ev where
  /-- `self._send_executor.submit(self._do_send, ...)` by a thread of request `r` -/
  | submit (r size : Nat)
  /-- `self._pending_sends.add(future)` -/
  | add (f : Nat)
  /-- `future.add_done_callback(self._remove_pending_send)` -/
  | hook (f : Nat)
  /-- a thread of the pool takes the oldest job -/
  | start
  /-- the peer stores the message of the running job `f` -/
  | arrive (f : Nat)
  /-- the running job `f` ends -/
  | finish (f : Nat) (o : Outcome)
  /-- the pool thread runs the callback of `f` -/
  | callback (f : Nat)
  /-- `pending = list(self._pending_sends)` by request `r` -/
  | snapshot (r : Nat)
  /-- `future.result(timeout)` returns or raises for the next future of `r` -/
  | pass (r : Nat)
  /-- `future.result(timeout)` runs into its timeout -/
  | giveUp (r : Nat)
  /-- the wait loop of `r` is over and `_do_execute` stores the results -/
  | finishReq (r : Nat)
  /-- evaluation of `r` raised -/
  | failReq (r : Nat)
  /-- `stats.reset()` -/
  | reset
  deriving DecidableEq, Repr

/-- replace one job -/
def setJob (s : St) (f : Nat) (j : Job) : St := { s with jobs := s.jobs.set f j }

/-- replace the state of one request -/
def setReq (s : St) (r : Nat) (x : ReqSt) : St := { s with reqs := fun q => if q = r then x else s.reqs q }

/-- `self._pending_sends.discard(future)` (http.py:551-554) -/
def discard (s : St) (f : Nat) : St := { s with pending := s.pending.filter (fun g => g ≠ f) }

/-- `record_send` and `record_send_error` where `_do_send` calls them (http.py:180-190, 467-489) -/
def record (s : St) (size : Nat) : Outcome → St
  | .sent => { s with messagesSent := s.messagesSent + 1, bytesSent := s.bytesSent + size }
  | .refused => { s with sendErrors := s.sendErrors + 1 }
  | .unbuilt => s

/-- the futures in one phase -/
def count (p : Phase → Bool) (s : St) : Nat := s.jobs.countP fun j => p j.ph

/-- a queued job -/
def isQueued (j : Job) : Bool := j.ph = .queued

/-- a job some thread of the pool is running -/
def isRunning : Phase → Bool := fun p => p = .running

/-- every `send` call of request `r` has returned -/
def settled (s : St) (r : Nat) : Bool := s.jobs.all fun j => j.req ≠ r || j.reg = .hooked || j.reg = .cleaned

/-- the finished state of a phase -/
def isOver : Phase → Bool
  | .over _ => true
  | _ => false

/-- `Future.done()` -/
def isDone (s : St) (f : Nat) : Bool :=
  match s.jobs[f]? with
  | some j => isOver j.ph
  | none => false

/-- `add_done_callback` (CPython, used at http.py:326): on a finished future the callback runs at once in the calling thread,
otherwise it is kept for the thread that finishes it -/
def hooked (s : St) (f : Nat) (j : Job) : St :=
  if isOver j.ph then discard (setJob s f { j with reg := .cleaned }) f
  else setJob s f { j with reg := .hooked }

/-- the end of a running job: the thread records the outcome (http.py:472, 482-489); a success means that the peer has answered,
which it does after storing the message (http.py:835-837) -/
def finished (s : St) (f : Nat) (j : Job) (o : Outcome) : Option St :=
  if j.ph = .running ∧ (o = .sent → f ∈ s.mail) ∧ (o = .unbuilt → f ∉ s.mail) then
    some (record (setJob s f { j with ph := .over o }) j.size o)
  else none

/-- one step of the worker with a pool of `n` threads (`max_workers=world_size`, http.py:281-283); `none`: not possible in
this state -/
def step (n : Nat) (s : St) : Ev → Option St
  | .submit r size =>
    if s.reqs r = .working then some { s with jobs := s.jobs ++ [⟨r, size, .submitted, .queued⟩] } else none
  | .add f =>
    match s.jobs[f]? with
    | some j =>
      if j.reg = .submitted then some { setJob s f { j with reg := .added } with pending := s.pending ++ [f] } else none
    | none => none
  | .hook f =>
    match s.jobs[f]? with
    | some j => if j.reg = .added then some (hooked s f j) else none
    | none => none
  | .start =>
    if count isRunning s < n then
      match s.jobs.findIdx? isQueued with
      | some f =>
        match s.jobs[f]? with
        | some j => some (setJob s f { j with ph := .running })
        | none => none
      | none => none
    else none
  | .arrive f =>
    match s.jobs[f]? with
    | some j => if j.ph = .running ∧ f ∉ s.mail then some { s with mail := s.mail ++ [f] } else none
    | none => none
  | .finish f o =>
    match s.jobs[f]? with
    | some j => finished s f j o
    | none => none
  | .callback f =>
    match s.jobs[f]? with
    | some j =>
      if j.reg = .hooked ∧ isOver j.ph = true then some (discard (setJob s f { j with reg := .cleaned }) f) else none
    | none => none
  | .snapshot r =>
    if s.reqs r = .working ∧ settled s r = true then some (setReq s r (.waiting s.pending false)) else none
  | .pass r =>
    match s.reqs r with
    | .waiting (f :: todo) g => if isDone s f = true then some (setReq s r (.waiting todo g)) else none
    | _ => none
  | .giveUp r =>
    match s.reqs r with
    | .waiting (_ :: todo) _ => some (setReq s r (.waiting todo true))
    | _ => none
  | .finishReq r =>
    match s.reqs r with
    | .waiting [] g => some (setReq s r (.ended g))
    | _ => none
  | .failReq r => if s.reqs r = .working then some (setReq s r .failed) else none
  | .reset => some { s with messagesSent := 0, bytesSent := 0, sendErrors := 0 }

/-- a run of the worker -/
def run (n : Nat) (s : St) : List Ev → Option St
  | [] => some s
  | e :: es => (step n s e).bind fun s' => run n s' es

end Verif.Comm.Sends
