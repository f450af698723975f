import Verif.Comm.Sync
import Mathlib.Logic.Function.Basic
import Mathlib.Data.List.Perm.Subperm
import Mathlib.Data.List.Range
import Mathlib.Tactic.Push
/-!
# C106 — requests that run at the same time on the same workers

A worker may be given several requests at a time (several threads calling `mp.evaluate`, several programs using one cluster).  Each
request has a communication context of its own (simp_worker/request.py:53), but all use the worker's one communicator, whose mailbox is
keyed by the sender and by the message key `"{context_id}:{seq}"` (comm_context.py:75-107, mem.py:113-145); the context id is the job id,
or the constant "anonymous" when the caller gives none — and the driver never does (simp_driver/ops.py:113).

`Multi` is the network of `Verif.Comm` with one process per request and party, and mailboxes shared by all requests.  In the simulator all
parties of all requests share one thread pool with `world_size` threads and a first-in first-out queue (simp_worker/mem.py:164,
simp_driver/mem.py:158-167): `Pool`.
-/
namespace Verif.Driver.Concurrent
open Verif.Comm

variable {J M A : Type} [DecidableEq J]

/-- All requests: their processes and counters, and the mailboxes, whose keys carry the context id. -/
structure Multi (J M A : Type) where
  /-- the request's context id -/
  id : Nat → J
  proc : Nat → Nat → Proc M A
  seq : Nat → Nat → Nat → Nat
  slot : J → Key → Slot M

/-- A party of a request makes a step, or a message in flight arrives. -/
inductive Lab (J : Type) where
  | run (r p : Nat)
  | deliver (j : J) (k : Key)

/-- What request `r` sees: its processes, its counters, the mailbox entries that carry its id. -/
def Multi.view (s : Multi J M A) (r : Nat) : Net M A := ⟨s.proc r, s.seq r, s.slot (s.id r)⟩

/-- Put back what a step of request `r` changed. -/
def Multi.put (s : Multi J M A) (r : Nat) (n : Net M A) : Multi J M A :=
  { s with proc := upd s.proc r n.proc, seq := upd s.seq r n.seq, slot := upd s.slot (s.id r) n.slot }

/-- One step among `N` parties. (comm_context.py:75-107, mem.py:88-145) -/
def step (N : Nat) (s : Multi J M A) : Lab J → Option (Multi J M A)
  | .run r p => (Comm.step N (s.view r) (.run p)).map (s.put r)
  | .deliver j k =>
    match s.slot j k with
    | .flying m => some { s with slot := upd s.slot j (upd (s.slot j) k (.ready m)) }
    | _ => none

/-- The part of a schedule that concerns request `r`. -/
def own (s : Multi J M A) (r : Nat) : Lab J → Option Label
  | .run r' p => if r' = r then some (.run p) else none
  | .deliver j k => if j = s.id r then some (.deliver k) else none

/-! ### Isolation -/

theorem step_id {N : Nat} {s u : Multi J M A} {l : Lab J} (h : step N s l = some u) : u.id = s.id := by
  cases l with
  | run r p =>
    simp only [step, Option.map_eq_some_iff] at h
    obtain ⟨n, _, rfl⟩ := h
    rfl
  | deliver j k =>
    simp only [step] at h
    split at h
    · cases h; rfl
    · cases h

theorem view_put_self (s : Multi J M A) (r : Nat) (n : Net M A) : (s.put r n).view r = n := by
  simp [Multi.put, Multi.view, upd]

theorem view_put_other (s : Multi J M A) {r r' : Nat} (n : Net M A) (h : r' ≠ r) (hid : s.id r' ≠ s.id r) : (s.put r n).view r' = s.view r' := by
  simp [Multi.put, Multi.view, upd, h, hid]

/-- A step of the whole is a step of the request it belongs to, and no step of the others. -/
theorem step_view {N : Nat} {s u : Multi J M A} (hid : Function.Injective s.id) {l : Lab J} (h : step N s l = some u) (r : Nat) :
    (∀ l', own s r l = some l' → Comm.step N (s.view r) l' = some (u.view r)) ∧ (own s r l = none → u.view r = s.view r) := by
  cases l with
  | run r' p =>
    simp only [step, Option.map_eq_some_iff] at h
    obtain ⟨n, hn, rfl⟩ := h
    by_cases e : r' = r
    · subst e
      simp only [own, if_true, Option.some.injEq, forall_eq', reduceCtorEq, false_imp_iff, and_true]
      rw [view_put_self]; exact hn
    · simp only [own, if_neg e, reduceCtorEq, false_imp_iff, implies_true, true_and, forall_const]
      exact view_put_other s n (fun e' => e e'.symm) (fun e' => e (hid e').symm)
  | deliver j k =>
    simp only [step] at h
    split at h
    · next m hm =>
      cases h
      by_cases e : j = s.id r
      · subst e
        simp only [own, if_true, Option.some.injEq, forall_eq', reduceCtorEq, false_imp_iff, and_true]
        simp [Comm.step, plan, Multi.view, hm, Comm.apply, upd]
      · simp only [own, if_neg e, reduceCtorEq, false_imp_iff, implies_true, true_and, forall_const]
        have e' : s.id r ≠ j := fun x => e x.symm
        simp [Multi.view, upd, e']
    · cases h

/-- A schedule of all requests is, for each request, a schedule of that request alone. -/
theorem exec_view {N : Nat} {s u : Multi J M A} (hid : Function.Injective s.id) {ls : List (Lab J)} (h : exec (step N) s ls = some u) (r : Nat) :
    exec (Comm.step N) (s.view r) (ls.filterMap (own s r)) = some (u.view r) ∧ u.id = s.id := by
  induction ls generalizing s with
  | nil => cases h; exact ⟨rfl, rfl⟩
  | cons l ls ih =>
    simp only [exec] at h
    split at h
    · cases h
    · next s1 h1 =>
      have e := step_id h1
      obtain ⟨h2, h3⟩ := ih (e ▸ hid) h
      have howns : own s1 r = own s r := by
        funext l'
        cases l' <;> simp [own, e]
      rw [howns] at h2
      obtain ⟨ha, hb⟩ := step_view hid h1 r
      refine ⟨?_, h3.trans e⟩
      cases ho : own s r l with
      | none =>
        rw [List.filterMap_cons_none ho, ← hb ho]; exact h2
      | some l' =>
        rw [List.filterMap_cons_some ho]
        simp only [exec, ha l' ho]
        exact h2

theorem step_none {N : Nat} {s : Multi J M A} (h : Terminal (step N) s) (r : Nat) : Terminal (Comm.step N) (s.view r) := by
  intro l
  cases l with
  | run p =>
    have := h (.run r p)
    simpa [step] using this
  | deliver k =>
    have := h (.deliver (s.id r) k)
    simp only [step] at this
    split at this
    · cases this
    · next hm =>
      simp only [Comm.step, plan, Multi.view]
      rfl

/-- **C106** (isolation) Requests whose context ids differ do not disturb one another: if request `r` run alone always ends in `t`, then
whatever the other requests do — also if they block or fail — every schedule of all requests in which nothing more can happen leaves
request `r` in exactly `t`. -/
theorem requests_isolated {N : Nat} (s : Multi J M A) (hid : Function.Injective s.id) (r : Nat) (t : Net M A) (ht : Always N (s.view r) t)
    (ls : List (Lab J)) (u : Multi J M A) (h : exec (step N) s ls = some u) (hu : Terminal (step N) u) : u.view r = t := by
  obtain ⟨_, n, hn⟩ := ht
  exact ((hn _ _ (exec_view hid h r).1).2.2 (step_none hu r)).1

/-- **C106** (isolation, no interference midway) At every moment of every schedule request `r` is where some schedule of it alone would
have brought it, and can still come to its end. -/
theorem requests_progress {N : Nat} (s : Multi J M A) (hid : Function.Injective s.id) (r : Nat) (t : Net M A) (ht : Always N (s.view r) t)
    (ls : List (Lab J)) (u : Multi J M A) (h : exec (step N) s ls = some u) : Reach N (s.view r) (u.view r) ∧ Reach N (u.view r) t := by
  obtain ⟨_, n, hn⟩ := ht
  have hx := (exec_view hid h r).1
  obtain ⟨_, ⟨rest, hr, _⟩, _⟩ := hn _ _ hx
  exact ⟨⟨_, hx⟩, ⟨rest, hr⟩⟩

/-! ### Requests without a job id -/

/-- `job_id or "anonymous"` (simp_driver/mem.py:214, simp_worker/http.py:667) -/
def contextId (job : Option String) : String :=
  match job with
  | some j => if j = "" then "anonymous" else j
  | none => "anonymous"

/-- **C106** (scopes) Exactly the requests without a job id, with an empty one or with the id `anonymous` share a scope; all others
share one only with requests of the same id. -/
theorem shared_context_iff (a b : Option String) :
    contextId a = contextId b ↔
      (a.getD "" = "" ∨ a = some "anonymous") ∧ (b.getD "" = "" ∨ b = some "anonymous") ∨ a = b := by
  rcases a with _ | a <;> rcases b with _ | b <;> simp only [contextId, Option.getD, Option.some.injEq, reduceCtorEq, or_false, true_or, true_and, and_true, or_true]
  · by_cases hb : b = ""
    · simp [hb]
    · simp [hb, eq_comm]
  · by_cases ha : a = ""
    · simp [ha]
    · simp [ha]
  · by_cases ha : a = "" <;> by_cases hb : b = ""
    · simp [ha, hb]
    · subst ha
      simp only [if_true, hb, if_false, true_or, true_and, false_or]
      constructor
      · exact fun h => Or.inl h.symm
      · rintro (h | h)
        · exact h.symm
        · exact absurd h.symm hb
    · simp [ha, hb]
    · simp only [ha, hb, if_false, false_or]
      constructor
      · exact Or.inr
      · rintro (⟨h1, h2⟩ | h)
        · rw [h1, h2]
        · exact h

/-- Requests with distinct, non-empty job ids other than "anonymous" have distinct context ids. -/
theorem contextId_injective (jobs : Nat → String) (h : Function.Injective jobs) (hne : ∀ r, jobs r ≠ "") : Function.Injective fun r => contextId (some (jobs r)) := by
  intro a b e
  simp only [contextId, hne, if_false] at e
  exact h e

/-- Two requests at two parties: in each, party 0 sends its own value to party 1, which returns what it got. -/
def send (v : Nat) : Nat → Proc Nat Nat
  | 0 => .send 1 v (.ret v)
  | _ => .recv 0 .ret

/-- The two requests, given their job ids. -/
def pair (jobs : Nat → Option String) : Multi String Nat Nat :=
  ⟨fun r => contextId (jobs r), fun r => send (10 + r), fun _ _ _ => 0, fun _ _ => .empty⟩

/-- **C106** (violated) Without job ids — as the driver submits them — a request is given the other request's message: here request 0
returns 11, the value sent in request 1, and request 1's own receiver waits for ever. -/
theorem anonymous_requests_mix_violated : ∃ ls u, exec (step 2) (pair fun _ => none) ls = some u ∧
    u.proc 0 1 = .ret 11 := by
  refine ⟨[.run 1 0, .deliver "anonymous" (1, 0, 0), .run 0 1], _, rfl, ?_⟩
  rfl

/-- **C106** (violated) … or a send fails because the mailbox still holds the other request's message ("Mailbox overflow"). -/
theorem anonymous_requests_fail_violated : ∃ ls u, exec (step 2) (pair fun _ => none) ls = some u ∧ u.proc 0 0 = .fail := by
  refine ⟨[.run 1 0, .run 0 0], _, rfl, ?_⟩
  rfl

/-! ### The simulator's thread pool -/

/-- The requests together with the pool: the tasks in the order of submission, and how many of them have been taken by a thread. -/
structure Pool (J M A : Type) where
  net : Multi J M A
  tasks : List (Nat × Nat)
  taken : Nat

/-- A thread takes the next task; or a step of the network. -/
inductive PLab (J : Type) where
  | take
  | net (l : Lab J)

/-- The task has returned or raised. -/
def done : Proc M A → Bool
  | .ret _ => true
  | .fail => true
  | _ => false

/-- Threads that are occupied. -/
def Pool.busy (s : Pool J M A) : Nat := ((s.tasks.take s.taken).filter fun rp => !done (s.net.proc rp.1 rp.2)).length

/-- One step with `N` parties and `N` threads. (simp_worker/mem.py:164 `ThreadPoolExecutor(max_workers=world_size)`; simp_driver/mem.py:158-167) -/
def pstep (N : Nat) (s : Pool J M A) : PLab J → Option (Pool J M A)
  | .take => if s.busy < N ∧ s.taken < s.tasks.length then some { s with taken := s.taken + 1 } else none
  | .net (.run r p) => if (r, p) ∈ s.tasks.take s.taken then (step N s.net (.run r p)).map fun n => { s with net := n } else none
  | .net (.deliver j k) => (step N s.net (.deliver j k)).map fun n => { s with net := n }

/-- `R` requests submitted one after the other, each to all `N` parties. (simp_driver/ops.py:107-114) -/
def inTurn (N R : Nat) : List (Nat × Nat) := (List.range (R * N)).map fun i => (i / N, i % N)

/-- The network part of a schedule. -/
def netPart : PLab J → Option (Lab J)
  | .take => none
  | .net l => some l

theorem pexec_net {N : Nat} {s u : Pool J M A} {ls : List (PLab J)} (h : exec (pstep N) s ls = some u) :
    exec (step N) s.net (ls.filterMap netPart) = some u.net ∧ u.tasks = s.tasks := by
  induction ls generalizing s with
  | nil => cases h; exact ⟨rfl, rfl⟩
  | cons l ls ih =>
    simp only [exec] at h
    split at h
    · cases h
    · next s1 h1 =>
      obtain ⟨h2, h3⟩ := ih h
      rcases l with _ | (⟨r, p⟩ | ⟨j, k⟩)
      · simp only [pstep] at h1
        split at h1
        · cases h1; exact ⟨h2, h3⟩
        · cases h1
      · simp only [pstep] at h1
        split at h1
        · simp only [Option.map_eq_some_iff] at h1
          obtain ⟨n, hn, rfl⟩ := h1
          refine ⟨?_, h3⟩
          rw [List.filterMap_cons_some (show netPart (PLab.net (Lab.run r p)) = some (Lab.run r p) from rfl)]
          simp only [exec, hn]; exact h2
        · cases h1
      · simp only [pstep, Option.map_eq_some_iff] at h1
        obtain ⟨n, hn, rfl⟩ := h1
        refine ⟨?_, h3⟩
        rw [List.filterMap_cons_some (show netPart (PLab.net (Lab.deliver j k)) = some (Lab.deliver j k) from rfl)]
        simp only [exec, hn]; exact h2

/-- A request all of whose tasks have a thread, and that cannot go on in the pool, cannot go on at all. -/
theorem view_terminal {N : Nat} {u : Pool J M A} (hu : Terminal (pstep N) u) (r : Nat) (h : ∀ p, p < N → (r, p) ∈ u.tasks.take u.taken) :
    Terminal (Comm.step N) (u.net.view r) := by
  intro l
  cases l with
  | run p =>
    by_cases hp : p < N
    · have := hu (.net (.run r p))
      simp only [pstep, if_pos (h p hp), Option.map_eq_none_iff] at this
      simpa [step] using this
    · simp [Comm.step, plan, hp]
  | deliver k =>
    have := hu (.net (.deliver (u.net.id r) k))
    simp only [pstep, Option.map_eq_none_iff, step] at this
    split at this
    · cases this
    · simp only [Comm.step, plan, Multi.view]
      rfl

/-- **C106** (pool) If the requests are submitted one after the other, have different context ids, and each of them alone always comes to
an end at all parties, then they all do on the simulator's `N` threads: no schedule gets stuck before every request has ended as it would
have alone. -/
theorem pool_in_turn_completes {N R : Nat} (hN : 0 < N) (s : Pool J M A) (hid : Function.Injective s.net.id) (htasks : s.tasks = inTurn N R)
    (t : Nat → Net M A) (ht : ∀ r, r < R → Always N (s.net.view r) (t r) ∧ ∀ p, p < N → done ((t r).proc p) = true)
    (ls : List (PLab J)) (u : Pool J M A) (h : exec (pstep N) s ls = some u) (hu : Terminal (pstep N) u) :
    ∀ r, r < R → u.net.view r = t r := by
  obtain ⟨hx, hT⟩ := pexec_net h
  rw [htasks] at hT
  have hend : ∀ r, r < R → (r + 1) * N ≤ u.taken → u.net.view r = t r := by
    intro r hr htk
    have hmem : ∀ p, p < N → (r, p) ∈ u.tasks.take u.taken := by
      intro p hp
      rw [hT, inTurn, ← List.map_take, List.take_range, List.mem_map]
      refine ⟨r * N + p, ?_, ?_⟩
      · rw [List.mem_range]
        have h1 : (r + 1) * N = r * N + N := Nat.succ_mul _ _
        have h2 : (r + 1) * N ≤ R * N := Nat.mul_le_mul_right _ hr
        omega
      · have e1 : (r * N + p) / N = r := by rw [Nat.mul_comm, Nat.mul_add_div hN, Nat.div_eq_of_lt hp]; omega
        have e2 : (r * N + p) % N = p := by rw [Nat.mul_comm, Nat.mul_add_mod, Nat.mod_eq_of_lt hp]
        rw [e1, e2]
    obtain ⟨⟨_, n, hn⟩, _⟩ := ht r hr
    exact ((hn _ _ (exec_view hid hx r).1).2.2 (view_terminal hu r hmem)).1
  have htaken : ∀ r, r ≤ R → r * N ≤ u.taken := by
    intro r
    induction r with
    | zero => simp
    | succ r ih =>
      intro hr
      have ih := ih (by omega)
      by_contra hlt
      have hlt : u.taken < (r + 1) * N := by omega
      have hle : (r + 1) * N ≤ R * N := Nat.mul_le_mul_right _ hr
      have e : (r + 1) * N = r * N + N := Nat.succ_mul _ _
      have hbusy : u.busy ≤ u.taken - r * N := by
        unfold Pool.busy
        rw [hT, inTurn, ← List.map_take, List.take_range, List.filter_map, List.length_map]
        have hsub : ((List.range (min u.taken (R * N))).filter ((fun rp : Nat × Nat => !done (u.net.proc rp.1 rp.2)) ∘ fun i => (i / N, i % N))) ⊆ List.range' (r * N) (u.taken - r * N) := by
          intro i hi
          simp only [List.mem_filter, List.mem_range, Function.comp, Bool.not_eq_eq_eq_not, Bool.not_true] at hi
          obtain ⟨hi1, hi2⟩ := hi
          rw [List.mem_range'_1]
          by_contra hc
          have hlow : i < r * N := by omega
          have hq : i / N < r := (Nat.div_lt_iff_lt_mul hN).2 hlow
          have hq' : (i / N + 1) * N ≤ u.taken := le_trans (Nat.mul_le_mul_right _ hq) ih
          have hv := hend (i / N) (by omega) hq'
          have hd := (ht (i / N) (by omega)).2 (i % N) (Nat.mod_lt _ hN)
          rw [← hv] at hd
          simp only [Multi.view] at hd
          rw [hd] at hi2
          cases hi2
        have hnd : ((List.range (min u.taken (R * N))).filter ((fun rp : Nat × Nat => !done (u.net.proc rp.1 rp.2)) ∘ fun i => (i / N, i % N))).Nodup :=
          List.nodup_range.sublist List.filter_sublist
        have := (List.subperm_of_subset hnd hsub).length_le
        simpa using this
      have := hu .take
      simp only [pstep] at this
      rw [if_pos] at this
      · cases this
      · refine ⟨by omega, ?_⟩
        rw [hT, inTurn, List.length_map, List.length_range]; omega
  intro r hr
  exact hend r hr (htaken (r + 1) hr)

/-- In each of two requests party 0 waits for party 1's value. -/
def ask (v : Nat) : Nat → Proc Nat Nat
  | 0 => .recv 1 .ret
  | _ => .send 0 v (.ret v)

/-- Two such requests with ids of their own, their tasks queued in the given order. -/
def twoRequests (tasks : List (Nat × Nat)) : Pool Nat Nat Nat :=
  ⟨⟨fun r => r, fun r => ask (10 + r), fun _ _ _ => 0, fun _ _ => .empty⟩, tasks, 0⟩

/-- **C106** (violated) Two threads that submit at the same time interleave their tasks; party 0 of both requests then holds both threads of
a two-party simulator and waits for party 1, which never gets a thread: nothing can happen any more, and nobody has returned. -/
theorem pool_interleaved_violated : ∃ ls u, exec (pstep 2) (twoRequests [(0, 0), (1, 0), (0, 1), (1, 1)]) ls = some u ∧ Terminal (pstep 2) u ∧
    ∀ r p, done (u.net.proc r p) = false := by
  refine ⟨[.take, .take], ⟨⟨fun r => r, fun r => ask (10 + r), fun _ _ _ => 0, fun _ _ => .empty⟩, [(0, 0), (1, 0), (0, 1), (1, 1)], 2⟩, rfl, ?_, ?_⟩
  · rintro (_ | (⟨r, p⟩ | ⟨j, k⟩))
    · rfl
    · simp only [pstep]
      split
      · next h =>
        simp only [List.take, List.mem_cons, Prod.mk.injEq, List.not_mem_nil, or_false] at h
        rcases h with ⟨rfl, rfl⟩ | ⟨rfl, rfl⟩ <;> rfl
      · rfl
    · rfl
  · intro r p
    cases p <;> rfl

/-- The same two requests submitted in turn meet the hypotheses of `pool_in_turn_completes`. -/
theorem twoRequests_alone (r : Nat) : ∃ t, Always 2 ((twoRequests (inTurn 2 2)).net.view r) t ∧ (∀ p, p < 2 → done (t.proc p) = true) ∧ t.proc 0 = .ret (10 + r) := by
  have hr : ∃ u, exec (Comm.step 2) ((twoRequests (inTurn 2 2)).net.view r) [.run 1, .deliver (0, 1, 0), .run 0] = some u ∧
      u.proc 0 = .ret (10 + r) ∧ u.proc 1 = .ret (10 + r) ∧ u.slot = fun _ => .empty := by
    refine ⟨_, rfl, rfl, rfl, ?_⟩
    funext k
    simp only [upd, Comm.apply, twoRequests, Multi.view]
    split <;> simp_all
  obtain ⟨u, h1, h2, h3, h4⟩ := hr
  refine ⟨u, always_of_reach (wf_sync _ _) ⟨_, h1⟩ ?_, ?_, h2⟩
  · intro l
    cases l with
    | run p =>
      by_cases hp : p < 2
      · have : p = 0 ∨ p = 1 := by omega
        rcases this with rfl | rfl
        · simp [Comm.step, plan, h2]
        · simp [Comm.step, plan, h3]
      · simp [Comm.step, plan, hp]
    | deliver k => simp [Comm.step, plan, h4]
  · intro p hp
    have : p = 0 ∨ p = 1 := by omega
    rcases this with rfl | rfl
    · rw [h2]; rfl
    · rw [h3]; rfl

example : ∃ t : Nat → Net Nat Nat, ∀ ls u, exec (pstep 2) (twoRequests (inTurn 2 2)) ls = some u → Terminal (pstep 2) u →
    ∀ r, r < 2 → u.net.view r = t r ∧ (t r).proc 0 = .ret (10 + r) := by
  choose t h1 h2 h3 using twoRequests_alone
  exact ⟨t, fun ls u he hu r hr => ⟨pool_in_turn_completes (by decide) _ (fun _ _ e => e) rfl t (fun r _ => ⟨h1 r, h2 r⟩) ls u he hu r hr, h3 r⟩⟩

end Verif.Driver.Concurrent
