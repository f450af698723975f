import Verif.Comm.Mailbox
/-!
# C26 — polling several requests: `testall`, `testany` (mplang/backends/simp_worker/base.py:352-407)

The futures are looked at one after the other while other threads go on, so each request comes with what its future was when `testall`
looked at it (`seen`) and what it is when its result is collected (`now`).
-/
namespace Verif.Comm.Req
variable {V E : Type}

/-- what a future can become while nobody cancels it: nothing changes once it is done -/
def Later (a b : Fut V E) : Prop := a.isDone = true → b = a

/-- the collecting loop of `testall` (base.py:373-378) -/
def testCollect : List (Request V E) → Except E (List (Option V))
  | [] => .ok []
  | r :: rs => match (finalize r).status, (finalize r).err with
    | .error, some e => .error e
    | _, _ => match testCollect rs with
      | .ok vs => .ok ((finalize r).result :: vs)
      | .error e => .error e

/-- `testall` (base.py:352-380); `none` stands for `(False, None)`.  An observation is the future seen by `all(...)` (which stops at the first
future that is not done) and the request as it is afterwards. -/
def testAll (obs : List (Fut V E × Request V E)) : Option (Except E (List (Option V))) :=
  if obs.all (fun o => o.1.isDone) then some (testCollect (obs.map Prod.snd)) else none

/-- `testany` (base.py:383-407); `none` stands for `(None, None)` -/
def testAny : Nat → List (Fut V E × Request V E) → Option (Nat × Except E (Option V))
  | _, [] => none
  | i, o :: os => if o.1.isDone then
      some (i, match (finalize o.2).status, (finalize o.2).err with
        | .error, some e => .error e
        | _, _ => .ok (finalize o.2).result)
    else testAny (i + 1) os

theorem testCollect_eq (rs : List (Request V E)) : testCollect rs = collectAll rs := by
  induction rs with
  | nil => rfl
  | cons r rs ih => simp only [testCollect, collectAll, ih]; rfl

/-- **C26, `testall`.**  However the futures progress while it looks, `testall` answers with results only if every request is finished, and
then with what `wait_all` returns: the outcomes in argument order or the error of the first failed request; and it does answer if all were
finished when it looked. -/
theorem test_all_outcomes (obs : List (Fut V E × Request V E)) (hg : ∀ o ∈ obs, Good o.2) (hl : ∀ o ∈ obs, Later o.1 o.2.fut) :
    testAll obs = (if ∀ o ∈ obs, o.1.isDone = true then some ((obs.map Prod.snd).mapM fun r => outcome r.fut) else none) ∧
    (∀ x, testAll obs = some x → waitAll (obs.map Prod.snd) = some x) := by
  have hd : (∀ o ∈ obs, o.1.isDone = true) → ∀ r ∈ obs.map Prod.snd, r.fut.isDone = true := by
    intro h r hr
    obtain ⟨o, ho, rfl⟩ := List.mem_map.1 hr
    rw [hl o ho (h o ho)]
    exact h o ho
  have hg' : ∀ r ∈ obs.map Prod.snd, Good r := by
    intro r hr
    obtain ⟨o, ho, rfl⟩ := List.mem_map.1 hr
    exact hg o ho
  have hw := wait_all_outcomes (obs.map Prod.snd) hg'
  have key : (∀ o ∈ obs, o.1.isDone = true) → testAll obs = waitAll (obs.map Prod.snd) := by
    intro h
    unfold testAll waitAll
    rw [if_pos (List.all_eq_true.2 h), if_pos (List.all_eq_true.2 (hd h)), testCollect_eq]
  by_cases h : ∀ o ∈ obs, o.1.isDone = true
  · refine ⟨?_, fun x hx => by rw [← hx, key h]⟩
    rw [key h, hw, if_pos (hd h), if_pos h]
  · have hn : testAll obs = none := by
      unfold testAll
      rw [if_neg fun hc => h (List.all_eq_true.1 hc)]
    rw [if_neg h]
    exact ⟨hn, fun x hx => by rw [hn] at hx; cases hx⟩

theorem finalize_outcome (r : Request V E) (h : Good r) (hd : r.fut.isDone = true) :
    (match (finalize r).status, (finalize r).err with
      | .error, some e => .error e
      | _, _ => .ok (finalize r).result) = outcome r.fut := by
  obtain ⟨f, res, err, st⟩ := r
  cases st <;> cases f <;> simp_all [Good, finalize, Fut.isDone, outcome]

/-- **C26, `testany`.**  It answers with the index and the outcome of a finished request, the first one it saw finished, and with nothing exactly
if it saw none finished. -/
theorem test_any_outcome (obs : List (Fut V E × Request V E)) (hg : ∀ o ∈ obs, Good o.2) (hl : ∀ o ∈ obs, Later o.1 o.2.fut) (i : Nat) :
    (testAny i obs = none ↔ ∀ o ∈ obs, o.1.isDone = false) ∧
    ∀ j x, testAny i obs = some (j, x) → i ≤ j ∧ ∃ o, obs[j - i]? = some o ∧ o.2.fut.isDone = true ∧ x = outcome o.2.fut ∧
      ∀ m q, m < j - i → obs[m]? = some q → q.1.isDone = false := by
  induction obs generalizing i with
  | nil => simp [testAny]
  | cons o os ih =>
    have h1 := hg o (by simp)
    have h2 := hl o (by simp)
    obtain ⟨ih1, ih2⟩ := ih (fun x hx => hg x (by simp [hx])) (fun x hx => hl x (by simp [hx])) (i + 1)
    unfold testAny
    by_cases hd : o.1.isDone = true
    · rw [if_pos hd]
      refine ⟨⟨fun h => (by cases h), fun h => (by rw [h o (by simp)] at hd; cases hd)⟩, ?_⟩
      intro j x h
      cases h
      refine ⟨Nat.le_refl _, o, by simp, by rw [h2 hd]; exact hd, ?_, fun m q hm _ => absurd hm (by omega)⟩
      have hd' : o.2.fut.isDone = true := by rw [h2 hd]; exact hd
      exact finalize_outcome _ h1 hd'
    · rw [if_neg hd]
      have hf : o.1.isDone = false := by cases hh : o.1.isDone <;> simp_all
      refine ⟨?_, ?_⟩
      · rw [ih1]; simp [hf]
      · intro j x h
        obtain ⟨a, q, b1, b2, b3, b4⟩ := ih2 j x h
        refine ⟨by omega, q, ?_, b2, b3, ?_⟩
        · rw [show j - i = (j - (i + 1)) + 1 by omega]; simpa using b1
        · intro m q hm hq
          cases m with
          | zero => simp only [List.getElem?_cons_zero, Option.some.injEq] at hq; subst hq; exact hf
          | succ m => exact b4 m q (by omega) (by simpa using hq)

/-- Three requests: the second finished between the two looks at it; `testall` said no, `testany` finds the third. -/
example : let r1 : Request Nat String := runs (fresh .pending) [.start]
    let r3 : Request Nat String := runs (fresh .pending) [.start, .complete 4]
    let obs := [(Fut.running, r1), (Fut.running, r3), (Fut.done 4, r3)]
    (∀ o ∈ obs, Later o.1 o.2.fut) ∧ testAny 0 obs = some (2, .ok (some 4)) ∧ testAll obs = none ∧ testAll (obs.drop 2) = some (.ok [some 4]) := by
  refine ⟨?_, rfl, rfl, rfl⟩
  intro o ho
  simp only [List.mem_cons, List.not_mem_nil, or_false] at ho
  rcases ho with rfl | rfl | rfl
  · intro h; cases h
  · intro h; cases h
  · intro _; rfl

/-- **C26, cancelled requests (violated).**  `wait` on a cancelled request raises, but waiting for it with `wait_all`, or polling it, returns `None` as
if the operation had completed without a value. -/
theorem cancelled_looks_completed_violated : ∃ r : Request Nat String, Good r ∧ r.fut = .cancelled ∧ (act r .wait).2 = some .cancelledError ∧
    waitAll [r] = some (.ok [none]) ∧ testAll [(r.fut, r)] = some (.ok [none]) ∧ (act r .test).2 = some (.value none) :=
  ⟨runs (fresh .pending) [.cancel], runs_good _ _ (fresh_good _), rfl, rfl, rfl, rfl, rfl⟩

end Verif.Comm.Req
