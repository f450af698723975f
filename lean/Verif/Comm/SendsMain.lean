import Verif.Comm.SendsProps
/-!
# Counters, progress and the reports of a worker: property C114
-/
namespace Verif.Comm.Sends

/-- the sum of a quantity over all calls of `send` -/
def total (w : Job → Nat) (s : St) : Nat := (s.jobs.map w).sum

theorem sum_set {w : Job → Nat} : ∀ {l : List Job} {f : Nat} {a : Job} (j : Job), l[f]? = some a →
    ((l.set f j).map w).sum + w a = (l.map w).sum + w j
  | [], f, a, j, h => by simp at h
  | b :: l, 0, a, j, h => by
    simp only [List.getElem?_cons_zero, Option.some.injEq] at h
    subst h
    simp only [List.set_cons_zero, List.map_cons, List.sum_cons]
    omega
  | b :: l, f + 1, a, j, h => by
    simp only [List.getElem?_cons_succ] at h
    have ih := sum_set (w := w) j h
    simp only [List.set_cons_succ, List.map_cons, List.sum_cons]
    omega

/-- one if the transfer ended this way -/
def hit (o : Outcome) (j : Job) : Nat := if j.ph = .over o then 1 else 0

/-- the bytes of a transfer that ended well -/
def bytes (j : Job) : Nat := if j.ph = .over .sent then j.size else 0

/-- what the counters hold as long as they are not reset, above what had been counted when the period began -/
structure Counted (a b c : Nat) (s : St) : Prop where
  sent : s.messagesSent + a = total (hit .sent) s
  bytes : s.bytesSent + b = total bytes s
  errors : s.sendErrors + c = total (hit .refused) s

/-- a step that changes one job without changing its phase changes none of the sums -/
theorem total_same {w : Job → Nat} {s : St} {f : Nat} {a j : Job} (h : s.jobs[f]? = some a) (hw : w j = w a) :
    ((s.jobs.set f j).map w).sum = total w s := by
  have := sum_set (w := w) j h
  unfold total
  omega

theorem step_counted {n b₁ b₂ b₃ : Nat} {s t : St} {e : Ev} (he : e ≠ .reset) (h : Counted b₁ b₂ b₃ s)
    (hs : step n s e = some t) : Counted b₁ b₂ b₃ t := by
  have same : ∀ {f : Nat} {a j : Job} (u : St), s.jobs[f]? = some a → hit .sent j = hit .sent a → bytes j = bytes a →
      hit .refused j = hit .refused a → u.jobs = s.jobs.set f j → u.messagesSent = s.messagesSent →
      u.bytesSent = s.bytesSent → u.sendErrors = s.sendErrors → Counted b₁ b₂ b₃ u := by
    intro f a j u ha h1 h2 h3 hu e1 e2 e3
    refine ⟨?_, ?_, ?_⟩
    · rw [e1, h.sent]
      simp only [total, hu]
      exact (total_same ha h1).symm
    · rw [e2, h.bytes]
      simp only [total, hu]
      exact (total_same ha h2).symm
    · rw [e3, h.errors]
      simp only [total, hu]
      exact (total_same ha h3).symm
  cases e with
  | submit r size =>
    simp only [step] at hs
    split at hs
    · cases hs
      refine ⟨?_, ?_, ?_⟩
      · rw [h.sent]; simp [total, hit]
      · rw [h.bytes]; simp [total, bytes]
      · rw [h.errors]; simp [total, hit]
    · cases hs
  | add f =>
    simp only [step] at hs
    split at hs
    · rename_i a ha
      split at hs
      · cases hs
        exact same _ ha (j := { a with reg := .added }) rfl rfl rfl rfl rfl rfl rfl
      · cases hs
    · cases hs
  | hook f =>
    simp only [step] at hs
    split at hs
    · rename_i a ha
      split at hs
      · cases hs
        unfold hooked
        split
        · exact same _ ha (j := { a with reg := .cleaned }) rfl rfl rfl rfl rfl rfl rfl
        · exact same _ ha (j := { a with reg := .hooked }) rfl rfl rfl rfl rfl rfl rfl
      · cases hs
    · cases hs
  | start =>
    simp only [step] at hs
    split at hs
    · split at hs
      · rename_i f hf
        split at hs
        · rename_i a ha
          cases hs
          have hq : a.ph = .queued := by
            rw [List.findIdx?_eq_some_iff_getElem] at hf
            obtain ⟨hl, hp, _⟩ := hf
            rw [List.getElem?_eq_getElem hl] at ha
            cases ha
            simpa [isQueued] using hp
          exact same _ ha (j := { a with ph := .running }) (by simp [hit, hq]) (by simp [bytes, hq]) (by simp [hit, hq])
            rfl rfl rfl rfl
        · cases hs
      · cases hs
    · cases hs
  | arrive f =>
    simp only [step] at hs
    split at hs
    · split at hs
      · cases hs
        exact ⟨h.sent, h.bytes, h.errors⟩
      · cases hs
    · cases hs
  | finish f o =>
    simp only [step] at hs
    split at hs
    · rename_i a ha
      unfold finished at hs
      split at hs
      · rename_i hr
        cases hs
        have h1 := sum_set (w := hit .sent) { a with ph := .over o } ha
        have h2 := sum_set (w := bytes) { a with ph := .over o } ha
        have h3 := sum_set (w := hit .refused) { a with ph := .over o } ha
        have e1 := h.sent
        have e2 := h.bytes
        have e3 := h.errors
        simp only [total] at e1 e2 e3
        have w1 : hit .sent a = 0 := by simp [hit, hr.1]
        have w2 : bytes a = 0 := by simp [bytes, hr.1]
        have w3 : hit .refused a = 0 := by simp [hit, hr.1]
        cases o with
        | sent =>
          have v1 : hit .sent { a with ph := .over .sent } = 1 := rfl
          have v2 : bytes { a with ph := .over .sent } = a.size := rfl
          have v3 : hit .refused { a with ph := .over .sent } = 0 := rfl
          refine ⟨?_, ?_, ?_⟩ <;> simp only [record, setJob, total] <;> omega
        | refused =>
          have v1 : hit .sent { a with ph := .over .refused } = 0 := rfl
          have v2 : bytes { a with ph := .over .refused } = 0 := rfl
          have v3 : hit .refused { a with ph := .over .refused } = 1 := rfl
          refine ⟨?_, ?_, ?_⟩ <;> simp only [record, setJob, total] <;> omega
        | unbuilt =>
          have v1 : hit .sent { a with ph := .over .unbuilt } = 0 := rfl
          have v2 : bytes { a with ph := .over .unbuilt } = 0 := rfl
          have v3 : hit .refused { a with ph := .over .unbuilt } = 0 := rfl
          refine ⟨?_, ?_, ?_⟩ <;> simp only [record, setJob, total] <;> omega
      · cases hs
    · cases hs
  | callback f =>
    simp only [step] at hs
    split at hs
    · rename_i a ha
      split at hs
      · cases hs
        exact same _ ha (j := { a with reg := .cleaned }) rfl rfl rfl rfl rfl rfl rfl
      · cases hs
    · cases hs
  | snapshot r =>
    simp only [step] at hs
    split at hs
    · cases hs
      exact ⟨h.sent, h.bytes, h.errors⟩
    · cases hs
  | pass r =>
    simp only [step] at hs
    split at hs
    · split at hs
      · cases hs
        exact ⟨h.sent, h.bytes, h.errors⟩
      · cases hs
    · cases hs
  | giveUp r =>
    simp only [step] at hs
    split at hs
    · cases hs
      exact ⟨h.sent, h.bytes, h.errors⟩
    · cases hs
  | finishReq r =>
    simp only [step] at hs
    split at hs
    · cases hs
      exact ⟨h.sent, h.bytes, h.errors⟩
    · cases hs
  | failReq r =>
    simp only [step] at hs
    split at hs
    · cases hs
      exact ⟨h.sent, h.bytes, h.errors⟩
    · cases hs
  | reset => exact absurd rfl he

theorem run_counted {n b₁ b₂ b₃ : Nat} : ∀ {es : List Ev} {s t : St}, Ev.reset ∉ es → Counted b₁ b₂ b₃ s →
    run n s es = some t → Counted b₁ b₂ b₃ t
  | [], s, t, _, h, hr => by
    cases hr
    exact h
  | e :: es, s, t, hn, h, hr => by
    simp only [run, Option.bind_eq_some_iff] at hr
    obtain ⟨u, hu, hr⟩ := hr
    simp only [List.mem_cons, not_or] at hn
    exact run_counted hn.2 (step_counted (fun e => hn.1 e.symm) h hu) hr

theorem sum_hit (o : Outcome) : ∀ l : List Job, (l.map (hit o)).sum = (l.filter fun j => j.ph = .over o).length
  | [] => rfl
  | j :: l => by
    have ih := sum_hit o l
    by_cases hp : j.ph = .over o
    · rw [List.filter_cons_of_pos (by simp [hp]), List.map_cons, List.sum_cons, ih, List.length_cons, hit, if_pos hp]
      omega
    · rw [List.filter_cons_of_neg (by simp [hp]), List.map_cons, List.sum_cons, ih, hit, if_neg hp]
      omega

theorem sum_bytes : ∀ l : List Job, (l.map bytes).sum = ((l.filter fun j => j.ph = .over .sent).map fun j => j.size).sum
  | [] => rfl
  | j :: l => by
    have ih := sum_bytes l
    by_cases hp : j.ph = .over .sent
    · rw [List.filter_cons_of_pos (by simp [hp]), List.map_cons, List.sum_cons, ih, List.map_cons, List.sum_cons, bytes, if_pos hp]
    · rw [List.filter_cons_of_neg (by simp [hp]), List.map_cons, List.sum_cons, ih, bytes, if_neg hp]
      omega

/-- **The counters of the statistics, read at any moment and under any interleaving of the sending threads, are the number and
the total size of the transfers that ended well and the number of those the network or the peer refused** (as long as they have
not been reset).  Missing from the full claim "every finished send is counted": see `unbuilt_send_uncounted_violated`. -/
theorem counters_exact_partial {n : Nat} {es : List Ev} {s : St} (hn : Ev.reset ∉ es) (hr : run n init es = some s) :
    s.messagesSent = (s.jobs.filter fun j => j.ph = .over .sent).length ∧
    s.bytesSent = ((s.jobs.filter fun j => j.ph = .over .sent).map fun j => j.size).sum ∧
    s.sendErrors = (s.jobs.filter fun j => j.ph = .over .refused).length := by
  have h := run_counted (b₁ := 0) (b₂ := 0) (b₃ := 0) hn ⟨rfl, rfl, rfl⟩ hr
  exact ⟨h.sent.trans (sum_hit _ _), h.bytes.trans (sum_bytes _), h.errors.trans (sum_hit _ _)⟩

/-- **After a reset the counters count the transfers that ended since the reset**: together with what had ended when `reset`
was called they make up everything that has ended, under any interleaving. -/
theorem counters_since_reset_partial {n : Nat} {es es' : List Ev} {s₀ s₁ s : St} (hr₀ : run n init es = some s₀)
    (hr₁ : step n s₀ .reset = some s₁) (hn : Ev.reset ∉ es') (hr : run n s₁ es' = some s) :
    s.messagesSent + (s₀.jobs.filter fun j => j.ph = .over .sent).length = (s.jobs.filter fun j => j.ph = .over .sent).length ∧
    s.bytesSent + ((s₀.jobs.filter fun j => j.ph = .over .sent).map fun j => j.size).sum =
      ((s.jobs.filter fun j => j.ph = .over .sent).map fun j => j.size).sum ∧
    s.sendErrors + (s₀.jobs.filter fun j => j.ph = .over .refused).length =
      (s.jobs.filter fun j => j.ph = .over .refused).length := by
  have h0 : Counted (total (hit .sent) s₀) (total bytes s₀) (total (hit .refused) s₀) s₁ := by
    simp only [step, Option.some.injEq] at hr₁
    subst hr₁
    exact ⟨Nat.zero_add _, Nat.zero_add _, Nat.zero_add _⟩
  have h := run_counted hn h0 hr
  refine ⟨?_, ?_, ?_⟩
  · rw [← sum_hit, ← sum_hit]; exact h.sent
  · rw [← sum_bytes, ← sum_bytes]; exact h.bytes
  · rw [← sum_hit, ← sum_hit]; exact h.errors

/-- one message before a reset and one after it -/
example : ∃ s₀ s₁ s : St,
    run 2 init [.submit 0 7, .add 0, .hook 0, .start, .arrive 0, .finish 0 .sent] = some s₀ ∧
    step 2 s₀ .reset = some s₁ ∧
    run 2 s₁ [.submit 0 5, .start, .arrive 1, .finish 1 .sent] = some s ∧
    s₀.messagesSent = 1 ∧ s.messagesSent = 1 ∧ s.bytesSent = 5 :=
  ⟨_, _, _, rfl, rfl, rfl, rfl, rfl, rfl⟩

/-- the steps a transfer still has to make -/
def left (j : Job) : Nat :=
  match j.ph with
  | .queued => 2
  | .running => 1
  | .over _ => 0

/-- the steps of the pool -/
def isWork : Ev → Bool
  | .start => true
  | .finish _ _ => true
  | _ => false

theorem step_left {n : Nat} {s t : St} {e : Ev} (hs : step n s e = some t) :
    2 * s.jobs.length + total left t + (if isWork e then 1 else 0) = 2 * t.jobs.length + total left s := by
  have same : ∀ {f : Nat} {a j : Job} (u : St), s.jobs[f]? = some a → left j = left a →
      u.jobs = s.jobs.set f j → 2 * s.jobs.length + total left u + 0 = 2 * u.jobs.length + total left s := by
    intro f a j u ha h1 hu
    have := total_same (s := s) ha h1
    unfold total at this ⊢
    rw [hu, List.length_set]
    omega
  cases e with
  | submit r size =>
    simp only [step] at hs
    split at hs
    · cases hs
      simp only [total, List.map_append, List.sum_append, List.length_append, List.map_cons, List.map_nil, List.sum_cons,
        List.sum_nil, left, List.length_cons, List.length_nil, isWork]
      simp
      omega
    · cases hs
  | add f =>
    simp only [step] at hs
    split at hs
    · rename_i a ha
      split at hs
      · cases hs
        exact same _ ha (j := { a with reg := .added }) rfl rfl
      · cases hs
    · cases hs
  | hook f =>
    simp only [step] at hs
    split at hs
    · rename_i a ha
      split at hs
      · cases hs
        unfold hooked
        split
        · exact same _ ha (j := { a with reg := .cleaned }) rfl rfl
        · exact same _ ha (j := { a with reg := .hooked }) rfl rfl
      · cases hs
    · cases hs
  | start =>
    simp only [step] at hs
    split at hs
    · split at hs
      · rename_i f hf
        split at hs
        · rename_i a ha
          cases hs
          have hq : a.ph = .queued := by
            rw [List.findIdx?_eq_some_iff_getElem] at hf
            obtain ⟨hl, hp, _⟩ := hf
            rw [List.getElem?_eq_getElem hl] at ha
            cases ha
            simpa [isQueued] using hp
          have h1 := sum_set (w := left) { a with ph := .running } ha
          simp only [left, hq] at h1
          simp only [total, setJob, List.length_set, isWork, left, if_true] at h1 ⊢
          omega
        · cases hs
      · cases hs
    · cases hs
  | arrive f =>
    simp only [step] at hs
    split at hs
    · split at hs
      · cases hs
        simp [isWork, total]
      · cases hs
    · cases hs
  | finish f o =>
    simp only [step] at hs
    split at hs
    · rename_i a ha
      unfold finished at hs
      split at hs
      · rename_i hr
        cases hs
        have h1 := sum_set (w := left) { a with ph := .over o } ha
        simp only [left, hr.1] at h1
        cases o <;> simp only [total, record, setJob, List.length_set, isWork, left, if_true] at h1 ⊢ <;> omega
      · cases hs
    · cases hs
  | callback f =>
    simp only [step] at hs
    split at hs
    · rename_i a ha
      split at hs
      · cases hs
        exact same _ ha (j := { a with reg := .cleaned }) rfl rfl
      · cases hs
    · cases hs
  | snapshot r =>
    simp only [step] at hs
    split at hs
    · cases hs; simp [isWork, total, setReq]
    · cases hs
  | pass r =>
    simp only [step] at hs
    split at hs
    · split at hs
      · cases hs; simp [isWork, total, setReq]
      · cases hs
    · cases hs
  | giveUp r =>
    simp only [step] at hs
    split at hs
    · cases hs; simp [isWork, total, setReq]
    · cases hs
  | finishReq r =>
    simp only [step] at hs
    split at hs
    · cases hs; simp [isWork, total, setReq]
    · cases hs
  | failReq r =>
    simp only [step] at hs
    split at hs
    · cases hs; simp [isWork, total, setReq]
    · cases hs
  | reset =>
    simp only [step] at hs
    cases hs
    simp [isWork, total]

theorem run_left {n : Nat} : ∀ {es : List Ev} {s t : St}, run n s es = some t →
    2 * s.jobs.length + total left t + es.countP isWork = 2 * t.jobs.length + total left s
  | [], s, t, hr => by
    cases hr
    simp
  | e :: es, s, t, hr => by
    simp only [run, Option.bind_eq_some_iff] at hr
    obtain ⟨u, hu, hr⟩ := hr
    have h1 := step_left hu
    have h2 := run_left hr
    rw [List.countP_cons]
    split at h1 <;> simp_all <;> omega

theorem left_zero : ∀ {l : List Job}, (l.map left).sum = 0 ↔ ∀ j ∈ l, Ended j
  | [] => by simp
  | j :: l => by
    have ih := left_zero (l := l)
    have hj : left j = 0 ↔ Ended j := by
      unfold left Ended
      cases j.ph <;> simp
    rw [List.map_cons, List.sum_cons, List.forall_mem_cons, ← hj, ← ih]
    omega

/-- **No transfer is stuck and every one ends**: as long as some send has not ended, the pool can take it or the transfer under
way can end, and the pool makes at most two steps per send, so after as many of them all have ended. -/
theorem sends_make_progress {n : Nat} (hn : 0 < n) {es : List Ev} {s : St} (hr : run n init es = some s) :
    (es.countP isWork ≤ 2 * s.jobs.length) ∧
    (es.countP isWork = 2 * s.jobs.length ↔ ∀ j ∈ s.jobs, Ended j) ∧
    ((∃ j ∈ s.jobs, ¬ Ended j) → ∃ e, isWork e = true ∧ (step n s e).isSome = true) := by
  have hl := run_left hr
  simp only [init, total, List.map_nil, List.sum_nil, List.length_nil] at hl
  refine ⟨by omega, ⟨?_, ?_⟩, ?_⟩
  · intro h
    exact left_zero.mp (by omega)
  · intro h
    have := left_zero.mpr h
    omega
  · rintro ⟨j, hj, hne⟩
    obtain ⟨f, hf⟩ := List.getElem?_of_mem hj
    by_cases hrun : ∃ a ∈ s.jobs, a.ph = .running
    · obtain ⟨a, ha, hp⟩ := hrun
      obtain ⟨g, hg⟩ := List.getElem?_of_mem ha
      refine ⟨.finish g .refused, rfl, ?_⟩
      simp [step, hg, finished, hp]
    · have hq : j.ph = .queued := by
        cases hp : j.ph with
        | queued => rfl
        | running => exact absurd ⟨j, hj, hp⟩ hrun
        | over o => exact absurd ⟨o, hp⟩ hne
      have hz : count isRunning s = 0 := by
        unfold count
        rw [List.countP_eq_zero]
        intro a ha hb
        exact hrun ⟨a, ha, by simpa [isRunning] using hb⟩
      refine ⟨.start, rfl, ?_⟩
      simp only [step, hz, if_pos hn]
      cases hi : s.jobs.findIdx? isQueued with
      | none =>
        rw [List.findIdx?_eq_none_iff] at hi
        have := hi j hj
        simp [isQueued, hq] at this
      | some g =>
        rw [List.findIdx?_eq_some_iff_getElem] at hi
        obtain ⟨hg, _⟩ := hi
        simp [List.getElem?_eq_getElem hg]

theorem setReq_self (s : St) (r : Nat) (x : ReqSt) : (setReq s r x).reqs r = x := by simp [setReq]

/-- Waiting for the pending sends ends: a request that waits for `k` futures can always go on, and is over after `k + 1` of
its own steps, whatever the other threads do. -/
theorem waiting_ends (n : Nat) : ∀ (todo : List Nat) (g : Bool) (s : St) (r : Nat), s.reqs r = .waiting todo g →
    ∃ es s' g', es.length = todo.length + 1 ∧ (∀ e ∈ es, e = .pass r ∨ e = .giveUp r ∨ e = .finishReq r) ∧
      run n s es = some s' ∧ s'.reqs r = .ended g'
  | [], g, s, r, h => by
    refine ⟨[.finishReq r], setReq s r (.ended g), g, rfl, by simp, ?_, setReq_self _ _ _⟩
    simp [run, step, h]
  | f :: todo, g, s, r, h => by
    by_cases hd : isDone s f = true
    · obtain ⟨es, s', g', h1, h2, h3, h4⟩ := waiting_ends n todo g (setReq s r (.waiting todo g)) r (setReq_self _ _ _)
      refine ⟨.pass r :: es, s', g', by simp [h1], ?_, ?_, h4⟩
      · intro e he
        rcases List.mem_cons.mp he with rfl | he
        · exact .inl rfl
        · exact h2 e he
      · simp only [run, step, h, if_pos hd, Option.bind_some]
        exact h3
    · obtain ⟨es, s', g', h1, h2, h3, h4⟩ := waiting_ends n todo true (setReq s r (.waiting todo true)) r (setReq_self _ _ _)
      refine ⟨.giveUp r :: es, s', g', by simp [h1], ?_, ?_, h4⟩
      · intro e he
        rcases List.mem_cons.mp he with rfl | he
        · exact .inr (.inl rfl)
        · exact h2 e he
      · simp only [run, step, h, Option.bind_some]
        exact h3

/-- a request is reported: its evaluation is over, with results or with an exception -/
def Reported : ReqSt → Prop
  | .ended _ => True
  | .failed => True
  | _ => False

/-- the jobs of a request after a step: none is added once the request is reported -/
theorem step_final {n : Nat} {s t : St} {e : Ev} {r : Nat} (hp : Reported (s.reqs r)) (h : step n s e = some t) :
    t.reqs r = s.reqs r ∧ ∀ (f : Nat) (j : Job), t.jobs[f]? = some j → j.req = r → ∃ j0, s.jobs[f]? = some j0 ∧ j0.req = r := by
  have same : ∀ (g : Nat) (j0 j1 : Job), s.jobs[g]? = some j0 → j1.req = j0.req → ∀ (f : Nat) (j : Job), (s.jobs.set g j1)[f]? = some j → j.req = r →
      ∃ k, s.jobs[f]? = some k ∧ k.req = r := fun g j0 j1 h0 h1 f j hj hr => by
    rw [List.getElem?_set] at hj
    split at hj
    · next hg =>
      subst hg
      split at hj
      · cases hj; exact ⟨j0, h0, by rw [← h1, hr]⟩
      · cases hj
    · exact ⟨j, hj, hr⟩
  have other : ∀ q x, s.reqs q ≠ s.reqs r → (setReq s q x).reqs r = s.reqs r ∧
      ∀ (f : Nat) (j : Job), (setReq s q x).jobs[f]? = some j → j.req = r → ∃ j0, s.jobs[f]? = some j0 ∧ j0.req = r := fun q x hq =>
    ⟨by
      simp only [setReq]
      rw [if_neg]
      rintro rfl
      exact hq rfl, fun f j hj hr => ⟨j, hj, hr⟩⟩
  cases e with
  | submit q size =>
    simp only [step] at h
    split at h
    · next hw =>
      cases h
      refine ⟨rfl, fun f j hj hr => ?_⟩
      rw [List.getElem?_append] at hj
      split at hj
      · exact ⟨j, hj, hr⟩
      · have := List.mem_of_getElem? hj
        rw [List.mem_singleton] at this
        subst this
        simp only at hr
        subst hr
        rw [hw] at hp
        exact hp.elim
    · cases h
  | add f =>
    simp only [step] at h
    split at h
    · next j hj =>
      split at h
      · cases h; exact ⟨rfl, same f j _ hj rfl⟩
      · cases h
    · cases h
  | hook f =>
    simp only [step] at h
    split at h
    · next j hj =>
      split at h
      · cases h
        unfold hooked
        split
        · exact ⟨rfl, same f j _ hj rfl⟩
        · exact ⟨rfl, same f j _ hj rfl⟩
      · cases h
    · cases h
  | start =>
    simp only [step] at h
    split at h
    · split at h
      · next f _ =>
        split at h
        · next j hj => cases h; exact ⟨rfl, same f j _ hj rfl⟩
        · cases h
      · cases h
    · cases h
  | arrive f =>
    simp only [step] at h
    split at h
    · split at h
      · cases h; exact ⟨rfl, fun f j hj hr => ⟨j, hj, hr⟩⟩
      · cases h
    · cases h
  | finish f o =>
    simp only [step] at h
    split at h
    · next j hj =>
      unfold finished at h
      split at h
      · cases h
        cases o <;> exact ⟨rfl, same f j _ hj rfl⟩
      · cases h
    · cases h
  | callback f =>
    simp only [step] at h
    split at h
    · next j hj =>
      split at h
      · cases h; exact ⟨rfl, same f j _ hj rfl⟩
      · cases h
    · cases h
  | snapshot q =>
    simp only [step] at h
    split at h
    · next hw => cases h; exact other q _ fun e => by rw [← e, hw.1] at hp; exact hp
    · cases h
  | pass q =>
    simp only [step] at h
    split at h
    · next hw =>
      split at h
      · cases h; exact other q _ fun e => by rw [← e, hw] at hp; exact hp
      · cases h
    · cases h
  | giveUp q =>
    simp only [step] at h
    split at h
    · next hw => cases h; exact other q _ fun e => by rw [← e, hw] at hp; exact hp
    · cases h
  | finishReq q =>
    simp only [step] at h
    split at h
    · next hw => cases h; exact other q _ fun e => by rw [← e, hw] at hp; exact hp
    · cases h
  | failReq q =>
    simp only [step] at h
    split at h
    · next hw => cases h; exact other q _ fun e => by rw [← e, hw] at hp; exact hp
    · cases h
  | reset =>
    cases h
    exact ⟨rfl, fun f j hj hr => ⟨j, hj, hr⟩⟩

/-- **A report is final**: whatever happens after a request was reported (as executed or as failed), it stays reported in that way, and it
makes no further sends. -/
theorem report_is_final {n : Nat} : ∀ {es : List Ev} {s t : St} {r : Nat}, Reported (s.reqs r) → run n s es = some t →
    t.reqs r = s.reqs r ∧ ∀ (f : Nat) (j : Job), t.jobs[f]? = some j → j.req = r → ∃ j0, s.jobs[f]? = some j0 ∧ j0.req = r
  | [], s, t, r, _, h => by
    cases h
    exact ⟨rfl, fun f j hj hr => ⟨j, hj, hr⟩⟩
  | e :: es, s, t, r, hp, h => by
    simp only [run, Option.bind_eq_some_iff] at h
    obtain ⟨u, hu, h⟩ := h
    obtain ⟨a1, a2⟩ := step_final hp hu
    obtain ⟨b1, b2⟩ := report_is_final (r := r) (by rw [a1]; exact hp) h
    refine ⟨b1.trans a1, fun f j hj hr => ?_⟩
    obtain ⟨k, hk, hkr⟩ := b2 f j hj hr
    exact a2 f k hk hkr

/-- two requests that send at the same time: request 0 makes two sends, the second ends before its callback is installed;
request 1 makes one, which is refused although it arrived -/
def busy : List Ev :=
  [.submit 0 10, .start, .submit 1 7, .add 0, .hook 0, .submit 0 5, .start, .arrive 0, .finish 0 .sent, .start, .add 2,
   .arrive 2, .finish 2 .sent, .hook 2, .add 1, .hook 1, .snapshot 0, .callback 0, .pass 0, .arrive 1, .finish 1 .refused,
   .pass 0, .finishReq 0, .callback 1, .snapshot 1, .finishReq 1]

example : ∃ s, run 2 init busy = some s ∧ s.reqs 0 = .ended false ∧ s.reqs 1 = .ended false ∧ s.mail = [0, 2, 1] ∧
    s.pending = [] ∧ s.messagesSent = 2 ∧ s.bytesSent = 15 ∧ s.sendErrors = 1 ∧ Ev.reset ∉ busy :=
  ⟨_, rfl, rfl, rfl, rfl, rfl, rfl, rfl, rfl, by decide⟩

/-- request 0 is reported while request 1 goes on; a failed request stays failed -/
example : ∃ s t, run 2 init (busy.take 23) = some s ∧ Reported (s.reqs 0) ∧ run 2 s (busy.drop 23) = some t ∧ t.reqs 0 = .ended false ∧
    ∃ u, run 2 init [.submit 3 1, .failReq 3] = some u ∧ Reported (u.reqs 3) ∧ run 2 u [.add 0, .hook 0, .start, .arrive 0] ≠ none ∧ run 2 u [.failReq 3] = none :=
  ⟨_, _, rfl, trivial, rfl, rfl, _, rfl, trivial, by decide, by rfl⟩

example : ∃ s, run 2 init (busy.take 16) = some s ∧ s.pending = [0, 1] ∧ (s.jobs.filter fun j => j.ph = .running).length = 1 :=
  ⟨_, rfl, rfl, rfl⟩

example : ∃ s, run 1 init [.submit 0 3, .add 0, .hook 0] = some s ∧ Calm s ∧ s.pending = [0] := by
  refine ⟨_, rfl, ?_, rfl⟩
  intro f j hj
  match f with
  | 0 => cases hj; decide
  | f + 1 => cases hj

/-- **Violated: "a request that is reported as executed has delivered its messages".**  A refused transfer is only logged:
`wait_pending_sends` drops the exception, nothing else looks at the future, and the request is reported as a success although
its peer never got the message (http.py:564-568, 674-680). -/
theorem lost_message_reported_ok_violated :
    ∃ es s, run 2 init es = some s ∧ s.reqs 0 = .ended false ∧
      ∃ f j, s.jobs[f]? = some j ∧ j.req = 0 ∧ f ∉ s.mail ∧ j.ph = .over .refused :=
  ⟨[.submit 0 10, .add 0, .hook 0, .snapshot 0, .start, .finish 0 .refused, .pass 0, .finishReq 0], _, rfl, rfl, 0, _, rfl,
    rfl, by decide, rfl⟩

/-- **Violated: "a request that is reported as executed has no transfer under way"** when a wait runs into its timeout: the
exception of the wait is dropped in the same way, and the message arrives after the report. -/
theorem late_message_violated :
    ∃ es s, run 2 init es = some s ∧ s.reqs 0 = .ended true ∧ s.mail = [] ∧ ∃ t, run 2 s [.arrive 0] = some t ∧ t.mail = [0] :=
  ⟨[.submit 0 10, .add 0, .hook 0, .start, .snapshot 0, .giveUp 0, .finishReq 0], _, rfl, rfl, rfl, _, rfl, rfl⟩

/-- **Violated: "every finished send is counted, as sent or as an error".**  A payload that cannot be serialised, or a rank
without an endpoint, raises before the `try` of `_do_send` and is in neither counter (http.py:387-424). -/
theorem unbuilt_send_uncounted_violated :
    ∃ es s, Ev.reset ∉ es ∧ run 1 init es = some s ∧ (∀ j ∈ s.jobs, Ended j) ∧ s.messagesSent + s.sendErrors < s.jobs.length := by
  refine ⟨[.submit 0 10, .add 0, .hook 0, .start, .finish 0 .unbuilt], _, by decide, rfl, ?_, by decide⟩
  intro j hj
  rcases List.mem_singleton.mp (show j ∈ [(⟨0, 10, .hooked, .over .unbuilt⟩ : Job)] from hj) with rfl
  exact ⟨.unbuilt, rfl⟩

end Verif.Comm.Sends
