import Verif.Driver.Concurrent
/-!
# C106 — several requests on a cluster: the thread pools of the workers

Each worker of a cluster has a pool of its own, with two threads and a first-in first-out queue (simp_worker/http.py:936-938), and `/exec`
puts the requests into it in the order in which they arrive there (simp_worker/http.py:706-720); the orders at different workers need not be
the same. Arrival itself is not modelled: the queues hold all requests from the start.
-/
namespace Verif.Driver.Concurrent
open Verif.Comm

variable {J M A : Type} [DecidableEq J]

/-- The requests together with the workers: at each one its queue, and how many of its requests have been taken by a thread.
(/repo/mplang/backends/simp_worker/http.py:706-720, 936-938) -/
structure Workers (J M A : Type) where
  net : Multi J M A
  queue : Nat → List Nat
  taken : Nat → Nat

/-- A thread of worker `p` takes the next request; or a step of the network. (/repo/mplang/backends/simp_worker/http.py:716-718) -/
inductive WLab (J : Type) where
  | take (p : Nat)
  | net (l : Lab J)

/-- Threads of worker `p` that are occupied. (/repo/mplang/backends/simp_worker/http.py:665-683) -/
def Workers.busy (s : Workers J M A) (p : Nat) : Nat := (((s.queue p).take (s.taken p)).filter fun r => !done (s.net.proc r p)).length

/-- One step with `N` workers of `k` threads. (/repo/mplang/backends/simp_worker/http.py:716-718, 936-938) -/
def wstep (k N : Nat) (s : Workers J M A) : WLab J → Option (Workers J M A)
  | .take p => if p < N ∧ s.busy p < k ∧ s.taken p < (s.queue p).length then some { s with taken := upd s.taken p (s.taken p + 1) } else none
  | .net (.run r p) => if r ∈ (s.queue p).take (s.taken p) then (step N s.net (.run r p)).map fun n => { s with net := n } else none
  | .net (.deliver j m) => (step N s.net (.deliver j m)).map fun n => { s with net := n }

/-- The network part of a schedule. -/
def wnetPart : WLab J → Option (Lab J)
  | .take _ => none
  | .net l => some l

theorem wexec_net {k N : Nat} {s u : Workers J M A} {ls : List (WLab J)} (h : exec (wstep k N) s ls = some u) :
    exec (step N) s.net (ls.filterMap wnetPart) = some u.net ∧ u.queue = s.queue := by
  induction ls generalizing s with
  | nil => cases h; exact ⟨rfl, rfl⟩
  | cons l ls ih =>
    simp only [exec] at h
    split at h
    · cases h
    · next s1 h1 =>
      obtain ⟨h2, h3⟩ := ih h
      rcases l with _ | (⟨r, p⟩ | ⟨j, m⟩)
      · simp only [wstep] at h1
        split at h1
        · cases h1; exact ⟨h2, h3⟩
        · cases h1
      · simp only [wstep] at h1
        split at h1
        · simp only [Option.map_eq_some_iff] at h1
          obtain ⟨n, hn, rfl⟩ := h1
          refine ⟨?_, h3⟩
          rw [List.filterMap_cons_some (show wnetPart (WLab.net (Lab.run r p)) = some (Lab.run r p) from rfl)]
          simp only [exec, hn]; exact h2
        · cases h1
      · simp only [wstep, Option.map_eq_some_iff] at h1
        obtain ⟨n, hn, rfl⟩ := h1
        refine ⟨?_, h3⟩
        rw [List.filterMap_cons_some (show wnetPart (WLab.net (Lab.deliver j m)) = some (Lab.deliver j m) from rfl)]
        simp only [exec, hn]; exact h2

/-- A request that has a thread at every worker, and cannot go on there, cannot go on at all. -/
theorem wview_terminal {k N : Nat} {u : Workers J M A} (hu : Terminal (wstep k N) u) (r : Nat)
    (h : ∀ p, p < N → r ∈ (u.queue p).take (u.taken p)) : Terminal (Comm.step N) (u.net.view r) := by
  intro l
  cases l with
  | run p =>
    by_cases hp : p < N
    · have := hu (.net (.run r p))
      simp only [wstep, if_pos (h p hp), Option.map_eq_none_iff] at this
      simpa [step] using this
    · simp [Comm.step, plan, hp]
  | deliver m =>
    have := hu (.net (.deliver (u.net.id r) m))
    simp only [wstep, Option.map_eq_none_iff, step] at this
    split at this
    · cases this
    · simp only [Comm.step, plan, Multi.view]
      rfl

/-- **C106** (workers, same order) If every worker receives the requests in the same order, they have different context ids, and each of them
alone always comes to an end at all parties, then they all do, with any number of threads per worker: no schedule gets stuck before every
request has ended as it would have alone. -/
theorem workers_in_order_complete {k N : Nat} (hk : 0 < k) (s : Workers J M A) (hid : Function.Injective s.net.id) (order : List Nat)
    (hq : ∀ p, p < N → s.queue p = order) (t : Nat → Net M A)
    (ht : ∀ r ∈ order, Always N (s.net.view r) (t r) ∧ ∀ p, p < N → done ((t r).proc p) = true)
    (ls : List (WLab J)) (u : Workers J M A) (h : exec (wstep k N) s ls = some u) (hu : Terminal (wstep k N) u) :
    ∀ r ∈ order, u.net.view r = t r := by
  obtain ⟨hx, hQ⟩ := wexec_net h
  have hq' : ∀ p, p < N → u.queue p = order := fun p hp => by rw [hQ]; exact hq p hp
  have hend : ∀ i, (∀ p, p < N → i ≤ u.taken p) → ∀ r ∈ order.take i, u.net.view r = t r := by
    intro i hi r hr
    have hmem : ∀ p, p < N → r ∈ (u.queue p).take (u.taken p) := by
      intro p hp
      rw [hq' p hp]
      exact List.take_subset_take_left _ (hi p hp) hr
    obtain ⟨⟨_, n, hn⟩, _⟩ := ht r (List.mem_of_mem_take hr)
    exact ((hn _ _ (exec_view hid hx r).1).2.2 (wview_terminal hu r hmem)).1
  have htaken : ∀ i, i ≤ order.length → ∀ p, p < N → i ≤ u.taken p := by
    intro i
    induction i with
    | zero => intros; omega
    | succ i ih =>
      intro hi p hp
      have ih := ih (by omega)
      by_contra hlt
      have he : u.taken p = i := by have := ih p hp; omega
      have hbusy : u.busy p = 0 := by
        unfold Workers.busy
        rw [hq' p hp, he, List.length_eq_zero_iff, List.filter_eq_nil_iff]
        intro r hr
        have hv := hend i ih r hr
        have hd := (ht r (List.mem_of_mem_take hr)).2 p hp
        rw [← hv] at hd
        simp only [Multi.view] at hd
        simp [hd]
      have := hu (.take p)
      simp only [wstep] at this
      rw [if_pos] at this
      · cases this
      · exact ⟨hp, by omega, by rw [hq' p hp]; omega⟩
  intro r hr
  exact hend order.length (htaken _ (le_refl _)) r (by rw [List.take_length]; exact hr)

/-- **C106** (workers, few requests) If there are at most as many requests as a worker has threads, they all end as alone, whatever the orders in
which they arrive at the workers. -/
theorem workers_few_complete {k N : Nat} (s : Workers J M A) (hid : Function.Injective s.net.id) (rs : List Nat)
    (hq : ∀ p, p < N → (s.queue p).Perm rs) (hfew : rs.length ≤ k) (t : Nat → Net M A)
    (ht : ∀ r ∈ rs, Always N (s.net.view r) (t r))
    (ls : List (WLab J)) (u : Workers J M A) (h : exec (wstep k N) s ls = some u) (hu : Terminal (wstep k N) u) :
    ∀ r ∈ rs, u.net.view r = t r := by
  obtain ⟨hx, hQ⟩ := wexec_net h
  have hq' : ∀ p, p < N → (u.queue p).Perm rs := fun p hp => by rw [hQ]; exact hq p hp
  have htaken : ∀ p, p < N → rs.length ≤ u.taken p := by
    intro p hp
    by_contra hlt
    have := hu (.take p)
    simp only [wstep] at this
    rw [if_pos] at this
    · cases this
    · refine ⟨hp, ?_, by rw [(hq' p hp).length_eq]; omega⟩
      have hb : u.busy p ≤ u.taken p := by
        unfold Workers.busy
        exact (List.length_filter_le _ _).trans (by rw [List.length_take]; omega)
      omega
  intro r hr
  have hmem : ∀ p, p < N → r ∈ (u.queue p).take (u.taken p) := by
    intro p hp
    rw [List.take_of_length_le (by rw [(hq' p hp).length_eq]; exact htaken p hp)]
    exact (hq' p hp).mem_iff.2 hr
  obtain ⟨_, n, hn⟩ := ht r hr
  exact ((hn _ _ (exec_view hid hx r).1).2.2 (wview_terminal hu r hmem)).1

/-! ### Four requests on two workers -/

/-- In each request party 0 sends its value to party 1, which sends it back. (a test input) -/
def echo (v : Nat) : Nat → Proc Nat Nat
  | 0 => .send 1 v (.recv 1 .ret)
  | _ => .recv 0 fun x => .send 0 x (.ret x)

/-- Such requests with ids of their own, queued at the two workers in the given orders. (a test input) -/
def echoes (q0 q1 : List Nat) : Workers Nat Nat Nat :=
  ⟨⟨fun r => r, fun r => echo (10 + r), fun _ _ _ => 0, fun _ _ => .empty⟩, fun p => if p = 0 then q0 else q1, fun _ => 0⟩

/-- Each of them alone comes to its end. -/
theorem echo_alone (q0 q1 : List Nat) (r : Nat) :
    ∃ t, Always 2 ((echoes q0 q1).net.view r) t ∧ (∀ p, p < 2 → done (t.proc p) = true) ∧ t.proc 0 = .ret (10 + r) := by
  have hr : ∃ u, exec (Comm.step 2) ((echoes q0 q1).net.view r) [.run 0, .deliver (1, 0, 0), .run 1, .run 1, .deliver (0, 1, 1), .run 0] = some u ∧
      u.proc 0 = .ret (10 + r) ∧ u.proc 1 = .ret (10 + r) ∧ u.slot = fun _ => .empty := by
    refine ⟨_, rfl, ?_, ?_, ?_⟩
    · rfl
    · rfl
    · funext k
      have e1 : upd (fun _ : Nat => 0) 1 1 1 = 1 := rfl
      have e2 : upd (fun _ : Nat => 0) 0 1 0 = 1 := rfl
      simp only [upd, Comm.apply, echoes, Multi.view]
      split <;> simp_all
  obtain ⟨u, h1, h2, h3, h4⟩ := hr
  refine ⟨u, always_of_reach (wf_sync _ _) ⟨_, h1⟩ ?_, ?_, h2⟩
  · intro l
    cases l with
    | run p =>
      by_cases hp : p < 2
      · have : p = 0 ∨ p = 1 := by omega
        rcases this with rfl | rfl
        · simp [Comm.step, plan, h2]
        · simp [Comm.step, plan, h3]
      · simp [Comm.step, plan, hp]
    | deliver k => simp [Comm.step, plan, h4]
  · intro p hp
    have : p = 0 ∨ p = 1 := by omega
    rcases this with rfl | rfl
    · rw [h2]; rfl
    · rw [h3]; rfl

/-- **C106** (violated) Four requests at the same time can lock up a cluster of two workers with two threads each: one worker runs the first
two, the other one the last two, and each waits for the other, although each request alone comes to its end. -/
theorem workers_reordered_violated : (∀ r, ∃ t, Always 2 ((echoes [0, 1, 2, 3] [2, 3, 0, 1]).net.view r) t ∧ ∀ p, p < 2 → done (t.proc p) = true) ∧
    ∃ ls u, exec (wstep 2 2) (echoes [0, 1, 2, 3] [2, 3, 0, 1]) ls = some u ∧ Terminal (wstep 2 2) u ∧
      ∀ r, r < 4 → ∀ p, p < 2 → done (u.net.proc r p) = false := by
  refine ⟨fun r => ?_, ?_⟩
  · obtain ⟨t, h1, h2, _⟩ := echo_alone [0, 1, 2, 3] [2, 3, 0, 1] r
    exact ⟨t, h1, h2⟩
  · have hx : ∃ u, exec (wstep 2 2) (echoes [0, 1, 2, 3] [2, 3, 0, 1])
        [.take 0, .take 0, .take 1, .take 1, .net (.run 0 0), .net (.deliver 0 (1, 0, 0)), .net (.run 1 0), .net (.deliver 1 (1, 0, 0))] = some u ∧
        u.queue = (fun p => if p = 0 then [0, 1, 2, 3] else [2, 3, 0, 1]) ∧ u.taken 0 = 2 ∧ u.taken 1 = 2 ∧
        u.net.id = (fun r => r) ∧
        u.net.proc 0 0 = .recv 1 .ret ∧ u.net.proc 1 0 = .recv 1 .ret ∧ u.net.proc 2 0 = echo 12 0 ∧ u.net.proc 3 0 = echo 13 0 ∧
        (∀ r, r < 4 → u.net.proc r 1 = echo (10 + r) 1) ∧
        (∀ j k m, u.net.slot j k ≠ .flying m) ∧ (∀ j b c, u.net.slot j (0, b, c) = .empty) ∧
        (∀ j b c, 2 ≤ j → u.net.slot j (1, b, c) = .empty) := by
      refine ⟨_, rfl, rfl, rfl, rfl, rfl, rfl, rfl, rfl, rfl, ?_, ?_, ?_, ?_⟩
      · intro r hr
        have : r = 0 ∨ r = 1 ∨ r = 2 ∨ r = 3 := by omega
        rcases this with rfl | rfl | rfl | rfl <;> rfl
      · intro j k m
        simp only [Multi.put, Multi.view, upd, Comm.apply, echoes]
        split <;> (try split) <;> (try split) <;> simp_all <;> (simp only [upd]; split <;> simp_all)
      · intro j b c
        simp only [Multi.put, Multi.view, upd, Comm.apply, echoes]
        repeat' split
        all_goals simp [upd]
      · intro j b c hj
        simp only [Multi.put, Multi.view, upd, Comm.apply, echoes]
        simp [show j ≠ 0 by omega, show j ≠ 1 by omega]
    obtain ⟨u, h1, hq, ht0, ht1, hid, p00, p10, p20, p30, p1, hfl, h0, hj⟩ := hx
    refine ⟨_, u, h1, ?_, ?_⟩
    · rintro (p | (⟨r, p⟩ | ⟨j, k⟩))
      · simp only [wstep]
        rw [if_neg]
        rintro ⟨hp, hb, _⟩
        have : p = 0 ∨ p = 1 := by omega
        rcases this with rfl | rfl
        · have : u.busy 0 = 2 := by simp [Workers.busy, hq, ht0, p00, p10, done]
          omega
        · have : u.busy 1 = 2 := by simp [Workers.busy, hq, ht1, p1, echo, done]
          omega
      · simp only [wstep]
        split
        · next hr =>
          by_cases hp : p < 2
          · have : p = 0 ∨ p = 1 := by omega
            rcases this with rfl | rfl
            · simp only [hq, ht0, if_true, List.take, List.mem_cons, List.not_mem_nil, or_false] at hr
              rcases hr with rfl | rfl
              · simp [step, Comm.step, plan, Multi.view, p00, h0]
              · simp [step, Comm.step, plan, Multi.view, p10, h0]
            · simp only [hq, ht1, Nat.one_ne_zero, if_false, List.take, List.mem_cons, List.not_mem_nil, or_false] at hr
              rcases hr with rfl | rfl
              · simp [step, Comm.step, plan, Multi.view, p1, echo, hid, hj]
              · simp [step, Comm.step, plan, Multi.view, p1, echo, hid, hj]
          · simp [step, Comm.step, plan, hp]
        · rfl
      · simp only [wstep, step]
        split
        · next m hm => exact absurd hm (hfl j k m)
        · rfl
    · intro r hr p hp
      have hp' : p = 0 ∨ p = 1 := by omega
      rcases hp' with rfl | rfl
      · have : r = 0 ∨ r = 1 ∨ r = 2 ∨ r = 3 := by omega
        rcases this with rfl | rfl | rfl | rfl
        · rw [p00]; rfl
        · rw [p10]; rfl
        · rw [p20]; rfl
        · rw [p30]; rfl
      · rw [p1 r hr]; rfl

/-- The same four requests in the same order at both workers, and two of them in any orders. -/
example : ∃ t : Nat → Net Nat Nat,
    (∀ ls u, exec (wstep 2 2) (echoes [0, 1, 2, 3] [0, 1, 2, 3]) ls = some u → Terminal (wstep 2 2) u → ∀ r, r < 4 → u.net.view r = t r ∧ (t r).proc 0 = .ret (10 + r)) := by
  choose t h1 h2 h3 using echo_alone [0, 1, 2, 3] [0, 1, 2, 3]
  refine ⟨t, fun ls u he hu r hr => ⟨workers_in_order_complete (by decide) _ (fun _ _ e => e) [0, 1, 2, 3] (fun p _ => by simp [echoes]) t
    (fun r _ => ⟨h1 r, h2 r⟩) ls u he hu r ?_, h3 r⟩⟩
  have : r = 0 ∨ r = 1 ∨ r = 2 ∨ r = 3 := by omega
  rcases this with rfl | rfl | rfl | rfl <;> simp

example : ∃ t : Nat → Net Nat Nat,
    (∀ ls u, exec (wstep 2 2) (echoes [0, 1] [1, 0]) ls = some u → Terminal (wstep 2 2) u → ∀ r ∈ [0, 1], u.net.view r = t r ∧ (t r).proc 0 = .ret (10 + r)) := by
  choose t h1 h2 h3 using echo_alone [0, 1] [1, 0]
  refine ⟨t, fun ls u he hu r hr => ⟨workers_few_complete (k := 2) _ (fun _ _ e => e) [0, 1] (fun p _ => ?_) (by simp) t
    (fun r _ => h1 r) ls u he hu r hr, h3 r⟩⟩
  show (if p = 0 then [0, 1] else [1, 0]).Perm [0, 1]
  split
  · exact List.Perm.refl _
  · exact List.Perm.swap _ _ _

end Verif.Driver.Concurrent
