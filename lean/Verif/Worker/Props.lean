import Verif.Worker.Tasks
/-!
# C31 — properties of asynchronous execution on a worker
-/
namespace Verif.Worker
open Verif.Store (lookup assign Keys lookup_assign_self lookup_assign_ne lookup_mem mem_lookup)
variable {R E : Type}

/-- The states a worker can be in: after any sequence of requests and thread steps. -/
def Reachable (s : State R E) : Prop := ∃ es, s = run init es

theorem Reachable.inv {s : State R E} (h : Reachable s) : Inv s := by
  obtain ⟨es, rfl⟩ := h; exact run_inv es init_inv

/-- **C31.** At most one task is pending or running at any time, whatever the requests and the scheduling. -/
theorem one_active (es : List (Event R E)) (id id' : Id) (t t' : Task R E)
    (h : lookup id (run init es).tasks = some t) (h' : lookup id' (run init es).tasks = some t')
    (ha : t.status = .pending ∨ t.status = .running) (ha' : t'.status = .pending ∨ t'.status = .running) : id = id' :=
  (run_inv es init_inv).one id id' t t' h h' ((active_iff t).2 ha) ((active_iff t').2 ha')

/-- **C31.** A well-formed submission is refused exactly when some task is pending or running; a refused submission
changes nothing; an accepted one makes its task pending and leaves every other task as it was. -/
theorem submission (s : State R E) (hs : Reachable s) (id : Id) (out : Except E R) (hid : id ≠ "") :
    ((submit s id true out).2 = .conflict ↔
      ∃ i t, lookup i s.tasks = some t ∧ (t.status = .pending ∨ t.status = .running)) ∧
    ((submit s id true out).2 = .conflict → (submit s id true out).1 = s) ∧
    ((submit s id true out).2 ≠ .conflict → poll (submit s id true out).1 id = .state .pending none none ∧
      ∀ i, i ≠ id → lookup i (submit s id true out).1.tasks = lookup i s.tasks) := by
  unfold submit
  simp only [hid, if_false]
  have hiff := any_active hs.inv.keys
  by_cases hc : s.tasks.any (fun e => active e.2) = true
  · have := hiff.1 hc
    simp only [hc, if_true]
    refine ⟨⟨fun _ => ?_, fun _ => rfl⟩, fun _ => rfl, fun h => absurd rfl h⟩
    obtain ⟨i, t, h1, h2⟩ := this
    exact ⟨i, t, h1, (active_iff t).1 h2⟩
  · simp only [hc]
    refine ⟨⟨fun h => by simp at h, ?_⟩, fun h => by simp at h, fun _ => ⟨?_, ?_⟩⟩
    · rintro ⟨i, t, h1, h2⟩
      exact absurd (hiff.2 ⟨i, t, h1, (active_iff t).2 h2⟩) hc
    · simp [poll, lookup_assign_self, newTask]
    · intro i hi; simp [lookup_assign_ne hi]

/-- Progress order of statuses. -/
def rank : Status → Nat
  | .pending => 0 | .running => 1 | .success => 2 | .failed => 2

/-- One step of a status: stays, or pending to running, or running to a terminal status. -/
def Next (a b : Status) : Prop :=
  a = b ∨ (a = .pending ∧ b = .running) ∨ (a = .running ∧ (b = .success ∨ b = .failed))

theorem exec_next {s : State R E} (hs : Inv s) (e : Event R E) (id : Id) (t : Task R E)
    (h : lookup id s.tasks = some t) :
    ∃ t', lookup id (exec s e).tasks = some t' ∧
      ((t'.sub = t.sub ∧ t'.out = t.out ∧ Next t.status t'.status) ∨
       (t.sub < t'.sub ∧ t'.status = .pending ∧ rank t.status = 2)) := by
  cases e with
  | submit i d out =>
    show ∃ t', lookup id (submit s i d out).1.tasks = some t' ∧ _
    unfold submit
    split
    · exact ⟨t, h, Or.inl ⟨rfl, rfl, Or.inl rfl⟩⟩
    split
    · exact ⟨t, h, Or.inl ⟨rfl, rfl, Or.inl rfl⟩⟩
    split
    · exact ⟨t, h, Or.inl ⟨rfl, rfl, Or.inl rfl⟩⟩
    rename_i hno
    by_cases hi : id = i
    · subst hi
      refine ⟨newTask s.count out, lookup_assign_self .., Or.inr ⟨?_, rfl, ?_⟩⟩
      · obtain ⟨p, hp, _⟩ := hs.own id t h
        show t.sub < s.count
        rcases Nat.lt_or_ge t.sub s.count with h1 | h1
        · exact h1
        · rw [hs.bound _ h1] at hp; simp at hp
      · have : ¬ active t = true := fun ha => hno ((any_active hs.keys).2 ⟨id, t, h, ha⟩)
        rw [active_iff] at this
        cases hst : t.status <;> simp_all [rank]
    · exact ⟨t, by simp only [lookup_assign_ne hi]; exact h, Or.inl ⟨rfl, rfl, Or.inl rfl⟩⟩
  | step n =>
    show ∃ t', lookup id (threadStep s n).tasks = some t' ∧ _
    unfold threadStep
    cases ht : s.threads n with
    | none => exact ⟨t, h, Or.inl ⟨rfl, rfl, Or.inl rfl⟩⟩
    | some th =>
      simp only [lookup_modify]
      by_cases hi : id = th.id
      · rw [if_pos hi, ← hi, h]
        refine ⟨_, rfl, Or.inl ⟨(write_keeps th t).1, (write_keeps th t).2, ?_⟩⟩
        by_cases h1 : th.pc = .queued
        · obtain ⟨k, a1, a2, a3⟩ := hs.queued n th ht h1
          rw [← hi, h] at a1
          have : t = k := Option.some.inj a1
          subst this
          right; left
          exact ⟨a3, by simp [write, h1]⟩
        · by_cases h2 : th.pc = .running
          · obtain ⟨k, a1, a2, a3⟩ := hs.running n th ht h2
            rw [← hi, h] at a1
            have : t = k := Option.some.inj a1
            subst this
            right; right
            refine ⟨a3, ?_⟩
            cases ho : th.out <;> simp [write, h2, ho]
          · exact Or.inl (write_late th h1 h2 t).1.symm
      · rw [if_neg hi]; exact ⟨t, h, Or.inl ⟨rfl, rfl, Or.inl rfl⟩⟩

theorem next_rank {a b : Status} (h : Next a b) : rank a ≤ rank b ∧ (rank a = 2 → a = b) := by
  rcases h with h | ⟨h1, h2⟩ | ⟨h1, h2 | h2⟩ <;> simp_all [rank]

/-- **C31.** A task never goes back: between any two moments of any history, the entry under an id either belongs to the
same submission, and then its status has stayed or moved forward (a terminal status does not change any more), or to a
later one, and then the earlier submission had ended. -/
theorem monotone (es es' : List (Event R E)) (id : Id) (t : Task R E)
    (h : lookup id (run init es).tasks = some t) :
    ∃ t', lookup id (run init (es ++ es')).tasks = some t' ∧
      ((t'.sub = t.sub ∧ rank t.status ≤ rank t'.status ∧ (rank t.status = 2 → t'.status = t.status)) ∨
       t.sub < t'.sub) := by
  have hi := run_inv es (init_inv (R := R) (E := E))
  have happ : run (init : State R E) (es ++ es') = run (run init es) es' := by
    simp [run, List.foldl_append]
  rw [happ]
  generalize run (init : State R E) es = s at h hi
  clear happ
  induction es' generalizing s t with
  | nil => exact ⟨t, h, Or.inl ⟨rfl, Nat.le_refl _, fun _ => rfl⟩⟩
  | cons e es' ih =>
    obtain ⟨t1, h1, h2⟩ := exec_next hi e id t h
    obtain ⟨t2, h3, h4⟩ := ih t1 (exec s e) h1 (exec_inv hi e)
    refine ⟨t2, h3, ?_⟩
    rcases h2 with ⟨a1, _, a2⟩ | ⟨a1, _, _⟩
    · rcases h4 with ⟨b1, b2, b3⟩ | b1
      · refine Or.inl ⟨by rw [b1, a1], Nat.le_trans (next_rank a2).1 b2, fun hr => ?_⟩
        have := (next_rank a2).2 hr
        rw [b3 (by rw [← this]; exact hr), this]
      · exact Or.inr (by omega)
    · rcases h4 with ⟨b1, _⟩ | b1
      · exact Or.inr (by omega)
      · exact Or.inr (by omega)

/-- **C31.** A status is reached one stage at a time: pending, running, then success or failed. -/
theorem stages (es : List (Event R E)) (e : Event R E) (id : Id) (t : Task R E)
    (h : lookup id (run init es).tasks = some t) :
    ∃ t', lookup id (run init (es ++ [e])).tasks = some t' ∧
      ((t'.sub = t.sub ∧ Next t.status t'.status) ∨
       (t.sub < t'.sub ∧ t'.status = .pending ∧ (t.status = .success ∨ t.status = .failed))) := by
  have happ : run (init : State R E) (es ++ [e]) = exec (run init es) e := by simp [run]
  rw [happ]
  obtain ⟨t', h1, h2⟩ := exec_next (run_inv es init_inv) e id t h
  refine ⟨t', h1, h2.imp (fun a => ⟨a.1, a.2.2⟩) (fun a => ⟨a.1, a.2.1, ?_⟩)⟩
  have := a.2.2
  cases hst : t.status <;> simp_all [rank]

/-- **C31.** The status of a task tells the truth about its own submission: reported successful only if executing it
returned, reported failed only if it raised. -/
theorem status_truthful (es : List (Event R E)) (id : Id) (t : Task R E)
    (h : lookup id (run init es).tasks = some t) :
    (t.status = .success → ∃ r, t.out = .ok r) ∧ (t.status = .failed → ∃ e, t.out = .error e) :=
  ⟨(run_inv es init_inv).succ id t h, (run_inv es init_inv).fail id t h⟩

/-- How far a thread has got. -/
def progress : Pc → Nat
  | .queued => 0 | .running => 1 | .succeeded => 2 | .failing => 2 | .finished => 3

/-- How often a thread is given a step. -/
def stepsOf (n : Nat) : List (Event R E) → Nat
  | [] => 0
  | .step m :: es => (if m = n then 1 else 0) + stepsOf n es
  | .submit .. :: es => stepsOf n es

theorem thread_progress (es : List (Event R E)) {s : State R E} (hi : Inv s) (n : Nat) (th : Thread R E)
    (h : s.threads n = some th) :
    ∃ th', (run s es).threads n = some th' ∧ th'.id = th.id ∧ th'.out = th.out ∧
      min 3 (progress th.pc + stepsOf n es) ≤ progress th'.pc := by
  induction es generalizing s th with
  | nil => exact ⟨th, h, rfl, rfl, Nat.min_le_right 3 _⟩
  | cons e es ih =>
    show ∃ th', (run (exec s e) es).threads n = some th' ∧ _
    cases e with
    | submit i d out =>
      have h2 : (exec s (.submit i d out)).threads n = some th := by
        show (submit s i d out).1.threads n = some th
        unfold submit
        split
        · exact h
        split
        · exact h
        split
        · exact h
        · have : n ≠ s.count := by rintro rfl; rw [hi.bound _ (Nat.le_refl _)] at h; simp at h
          simp only [this, if_false]; exact h
      exact ih (exec_inv hi _) th h2
    | step m =>
      by_cases hm : m = n
      · subst hm
        have h2 : (exec s (.step m)).threads m = some { th with pc := (write th).2 } := by
          show (threadStep s m).threads m = _
          unfold threadStep; rw [h]; simp
        obtain ⟨th', a1, a2, a3, a4⟩ := ih (exec_inv hi (.step m)) _ h2
        refine ⟨th', a1, a2, a3, Nat.le_trans ?_ a4⟩
        have hw : min 3 (progress th.pc + 1) ≤ progress (write th).2 := by
          obtain ⟨i, o, p⟩ := th
          cases p <;> cases o <;> simp [write, progress]
        simp only [stepsOf, if_true]
        omega
      · have h2 : (exec s (.step m)).threads n = some th := by
          show (threadStep s m).threads n = _
          unfold threadStep
          cases hx : s.threads m with
          | none => exact h
          | some x => simp only [Ne.symm hm, if_false]; exact h
        obtain ⟨th', a1, a2, a3, a4⟩ := ih (exec_inv hi (.step m)) th h2
        refine ⟨th', a1, a2, a3, ?_⟩
        simpa [stepsOf, hm] using a4

/-- **C31.** Every accepted task ends: once its thread has been given two steps, in whatever interleaving, the entry
under its id is terminal (or belongs to a later submission). -/
theorem task_ends (es es' : List (Event R E)) (id : Id) (t : Task R E)
    (h : lookup id (run init es).tasks = some t) (hn : 2 ≤ stepsOf t.sub es') :
    ∃ t', lookup id (run init (es ++ es')).tasks = some t' ∧
      ((t'.sub = t.sub ∧ (t'.status = .success ∨ t'.status = .failed)) ∨ t.sub < t'.sub) := by
  have hi := run_inv es (init_inv (R := R) (E := E))
  have happ : run (init : State R E) (es ++ es') = run (run init es) es' := by
    simp [run, List.foldl_append]
  obtain ⟨t', h1, h2⟩ := monotone es es' id t h
  refine ⟨t', h1, h2.imp (fun a => ⟨a.1, ?_⟩) _root_.id⟩
  obtain ⟨p, hp, _⟩ := hi.own id t h
  obtain ⟨th', b1, b2, b3, b4⟩ := thread_progress es' hi t.sub _ hp
  have hi' := run_inv (es ++ es') (init_inv (R := R) (E := E))
  rw [← happ] at b1
  obtain ⟨q, hq, q1, q2⟩ := hi'.own id t' h1
  rw [a.1, b1] at hq
  have hq := Option.some.inj hq
  subst hq
  have : 2 ≤ progress q := by simp only at b4; omega
  cases q with
  | queued => simp [progress] at this
  | running => simp [progress] at this
  | succeeded => exact Or.inl (q1.2 (Or.inl rfl))
  | failing => exact Or.inr (q2.2 (Or.inl rfl))
  | finished =>
    cases ho : t'.out with
    | ok r => exact Or.inl (q1.2 (Or.inr ⟨rfl, r, ho⟩))
    | error e => exact Or.inr (q2.2 (Or.inr ⟨rfl, e, ho⟩))

/-! ## Results -/

/-- No submission reuses an id while the thread of an earlier submission under that id has not finished. -/
def Polite (s : State R E) : List (Event R E) → Prop
  | [] => True
  | .submit id d out :: es =>
    (∀ n t, s.threads n = some t → t.id = id → t.pc = .finished) ∧ Polite (submit s id d out).1 es
  | .step n :: es => Polite (threadStep s n) es

/-- Under polite histories an unfinished thread writes to its own entry, and results are the entry's own. -/
structure Own (s : State R E) : Prop where
  thread : ∀ n t, s.threads n = some t → t.pc ≠ .finished → ∃ k, lookup t.id s.tasks = some k ∧ k.sub = n
  result : ∀ id t r, lookup id s.tasks = some t → t.result = some r → t.out = .ok r
  error : ∀ id t e, lookup id s.tasks = some t → t.error = some e → t.out = .error e
  done : ∀ id t th, lookup id s.tasks = some t → s.threads t.sub = some th → th.pc = .finished →
    (∀ r, t.out = .ok r → t.result = some r) ∧ (∀ e, t.out = .error e → t.error = some e)

theorem submit_own {s : State R E} (hi : Inv s) (ho : Own s) (id : Id) (d : Bool) (out : Except E R)
    (hp : ∀ n t, s.threads n = some t → t.id = id → t.pc = .finished) : Own (submit s id d out).1 := by
  unfold submit
  split
  · exact ho
  split
  · exact ho
  split
  · exact ho
  constructor
  · intro n t ht hpc
    by_cases hn : n = s.count
    · subst hn
      simp only [if_true, Option.some.injEq] at ht
      subst ht
      exact ⟨_, lookup_assign_self .., rfl⟩
    · simp only [hn, if_false] at ht
      have hid : t.id ≠ id := fun h => hpc (hp n t ht h)
      obtain ⟨k, h1, h2⟩ := ho.thread n t ht hpc
      exact ⟨k, by simp only [lookup_assign_ne hid]; exact h1, h2⟩
  · intro i t r hl hr
    by_cases hid : i = id
    · subst hid
      simp only [lookup_assign_self, Option.some.injEq] at hl
      subst hl; simp [newTask] at hr
    · simp only [lookup_assign_ne hid] at hl; exact ho.result i t r hl hr
  · intro i t r hl hr
    by_cases hid : i = id
    · subst hid
      simp only [lookup_assign_self, Option.some.injEq] at hl
      subst hl; simp [newTask] at hr
    · simp only [lookup_assign_ne hid] at hl; exact ho.error i t r hl hr
  · intro i t th hl hth hpc
    by_cases hid : i = id
    · subst hid
      simp only [lookup_assign_self, Option.some.injEq] at hl
      subst hl
      simp only [newTask, if_true, Option.some.injEq] at hth
      subst hth; simp at hpc
    · simp only [lookup_assign_ne hid] at hl
      have : t.sub ≠ s.count := by
        intro h; obtain ⟨p, hp, _⟩ := hi.own i t hl
        rw [h, hi.bound _ (Nat.le_refl _)] at hp; simp at hp
      simp only [this, if_false] at hth
      exact ho.done i t th hl hth hpc

theorem step_own {s : State R E} (hi : Inv s) (ho : Own s) (n : Nat) : Own (threadStep s n) := by
  unfold threadStep
  cases ht : s.threads n with
  | none => exact ho
  | some t =>
    simp only
    have hlk : ∀ i x, lookup i (modify t.id (write t).1 s.tasks) = some x →
        (i = t.id ∧ ∃ y, lookup i s.tasks = some y ∧ x = (write t).1 y) ∨ (i ≠ t.id ∧ lookup i s.tasks = some x) := by
      intro i x hl
      rw [lookup_modify] at hl
      by_cases hid : i = t.id
      · rw [if_pos hid] at hl
        obtain ⟨y, hy, rfl⟩ := Option.map_eq_some_iff.1 hl
        exact Or.inl ⟨hid, y, by rw [hid]; exact hy, rfl⟩
      · rw [if_neg hid] at hl; exact Or.inr ⟨hid, hl⟩
    -- the entry this thread writes to, if it has not finished
    have hown : t.pc ≠ .finished → ∀ y, lookup t.id s.tasks = some y → y.sub = n ∧ y.out = t.out := by
      intro hf y hy
      obtain ⟨k, h1, h2⟩ := ho.thread n t ht hf
      have : y = k := by rw [h1] at hy; exact (Option.some.inj hy).symm
      subst this
      obtain ⟨p, hp, _⟩ := hi.own _ _ h1
      rw [h2, ht] at hp
      exact ⟨h2, (congrArg Thread.out (Option.some.inj hp)).symm⟩
    have hfin : t.pc = .finished → ∀ y, (write t).1 y = y := by
      intro hf y; simp [write, hf]
    constructor
    · intro m x hx hpc
      by_cases hm : m = n
      · subst hm
        simp only [if_true, Option.some.injEq] at hx
        subst hx
        simp only at hpc ⊢
        have hf : t.pc ≠ .finished := by
          intro hf; apply hpc; simp [write, hf]
        obtain ⟨k, h1, h2⟩ := ho.thread m t ht hf
        refine ⟨(write t).1 k, by rw [lookup_modify]; simp [h1], ?_⟩
        rw [(write_keeps t k).1, h2]
      · simp only [hm, if_false] at hx
        obtain ⟨k, h1, h2⟩ := ho.thread m x hx hpc
        by_cases hid : x.id = t.id
        · refine ⟨(write t).1 k, by rw [lookup_modify, if_pos hid, ← hid, h1]; rfl, ?_⟩
          rw [(write_keeps t k).1, h2]
        · exact ⟨k, by rw [lookup_modify, if_neg hid]; exact h1, h2⟩
    · intro i x r hl hr
      rcases hlk i x hl with ⟨hid, y, hy, rfl⟩ | ⟨hid, hl⟩
      · rw [(write_keeps t y).2]
        by_cases hf : t.pc = .finished
        · rw [hfin hf] at hr; exact ho.result i y r hy hr
        · obtain ⟨h1, h2⟩ := hown hf y (by rw [← hid]; exact hy)
          obtain ⟨tid, tout, tpc⟩ := t
          cases tpc with
          | finished => exact absurd rfl hf
          | queued => exact ho.result i y r hy hr
          | running => cases tout <;> exact ho.result i y r hy hr
          | failing => exact ho.result i y r hy hr
          | succeeded =>
            simp only at h2
            rw [h2]
            cases tout with
            | error e => simp [write, Except.toOption] at hr
            | ok r' => simp [write, Except.toOption] at hr; rw [hr]
      · exact ho.result i x r hl hr
    · intro i x r hl hr
      rcases hlk i x hl with ⟨hid, y, hy, rfl⟩ | ⟨hid, hl⟩
      · rw [(write_keeps t y).2]
        by_cases hf : t.pc = .finished
        · rw [hfin hf] at hr; exact ho.error i y r hy hr
        · obtain ⟨h1, h2⟩ := hown hf y (by rw [← hid]; exact hy)
          obtain ⟨tid, tout, tpc⟩ := t
          cases tpc with
          | finished => exact absurd rfl hf
          | queued => exact ho.error i y r hy hr
          | running => cases tout <;> exact ho.error i y r hy hr
          | succeeded => exact ho.error i y r hy hr
          | failing =>
            simp only at h2
            rw [h2]
            cases tout with
            | ok e => simp [write] at hr
            | error r' => simp [write] at hr; rw [hr]
      · exact ho.error i x r hl hr
    · intro i x th hl hth hpc
      rcases hlk i x hl with ⟨hid, y, hy, rfl⟩ | ⟨hid, hl⟩
      · rw [(write_keeps t y).1] at hth
        rw [(write_keeps t y).2]
        by_cases hf : t.pc = .finished
        · rw [hfin hf]
          refine ho.done i y (if y.sub = n then t else th) hy ?_ ?_
          · by_cases hyn : y.sub = n
            · rw [if_pos hyn, hyn, ht]
            · simp only [hyn, if_false] at hth ⊢; exact hth
          · split
            · exact hf
            · exact hpc
        · obtain ⟨h1, h2⟩ := hown hf y (by rw [← hid]; exact hy)
          simp only [h1, if_true, Option.some.injEq] at hth
          subst hth
          simp only at hpc
          obtain ⟨tid, tout, tpc⟩ := t
          simp only at h2
          have hg := hi.good n _ ht
          cases tpc with
          | finished => exact absurd rfl hf
          | queued => simp [write] at hpc
          | running => cases tout <;> simp [write] at hpc
          | succeeded =>
            obtain ⟨r, hr⟩ := hg.1 rfl
            simp only at hr
            rw [h2, hr]; simp [write, Except.toOption]
          | failing =>
            obtain ⟨r, hr⟩ := hg.2 rfl
            simp only at hr
            rw [h2, hr]; simp [write]
      · have hne : x.sub ≠ n := by
          intro h
          obtain ⟨p, hp, _⟩ := hi.own i x hl
          rw [h, ht] at hp
          exact hid (congrArg Thread.id (Option.some.inj hp)).symm
        simp only [hne, if_false] at hth
        exact ho.done i x th hl hth hpc

theorem run_own (es : List (Event R E)) {s : State R E} (hi : Inv s) (ho : Own s) (hp : Polite s es) :
    Own (run s es) := by
  induction es generalizing s with
  | nil => exact ho
  | cons e es ih =>
    cases e with
    | submit id d out => exact ih (submit_inv hi id d out) (submit_own hi ho id d out hp.1) hp.2
    | step n => exact ih (step_inv hi n) (step_own hi ho n) hp

/-- Threads are numbered by accepted submission, so an entry's `sub` is the last accepted submission under its id. -/
theorem sub_is_last (es : List (Event R E)) (n : Nat) (th : Thread R E) (h : (run init es).threads n = some th) :
    ∃ t, lookup th.id (run init es).tasks = some t ∧ n ≤ t.sub := by
  suffices H : ∀ (es : List (Event R E)) (s : State R E), Inv s →
      (∀ n th, s.threads n = some th → ∃ t, lookup th.id s.tasks = some t ∧ n ≤ t.sub) →
      ∀ n th, (run s es).threads n = some th → ∃ t, lookup th.id (run s es).tasks = some t ∧ n ≤ t.sub from
    H es init init_inv (by simp [init]) n th h
  intro es
  induction es with
  | nil => intro s _ h; exact h
  | cons e es ih =>
    intro s hi hs
    refine ih (exec s e) (exec_inv hi e) ?_
    intro n th hth
    by_cases hold : ∃ th0, s.threads n = some th0 ∧ th0.id = th.id
    · obtain ⟨th0, h0, hid⟩ := hold
      obtain ⟨t, h1, h2⟩ := hs n th0 h0
      obtain ⟨t', h3, h4⟩ := exec_next hi e _ t h1
      refine ⟨t', by rw [← hid]; exact h3, ?_⟩
      rcases h4 with h4 | h4
      · omega
      · omega
    · cases e with
      | step m =>
        exfalso; apply hold
        have hth' : (threadStep s m).threads n = some th := hth
        unfold threadStep at hth'
        cases hx : s.threads m with
        | none => rw [hx] at hth'; exact ⟨th, hth', rfl⟩
        | some x =>
          rw [hx] at hth'
          simp only at hth'
          by_cases hn : n = m
          · subst hn; simp only [if_true, Option.some.injEq] at hth'
            subst hth'; exact ⟨x, hx, rfl⟩
          · simp only [hn, if_false] at hth'; exact ⟨th, hth', rfl⟩
      | submit i d out =>
        have hth' : (submit s i d out).1.threads n = some th := hth
        show ∃ t, lookup th.id (submit s i d out).1.tasks = some t ∧ _
        unfold submit at hth' ⊢
        split at hth'
        · exact absurd ⟨th, hth', rfl⟩ hold
        split at hth'
        · exact absurd ⟨th, hth', rfl⟩ hold
        split at hth'
        · exact absurd ⟨th, hth', rfl⟩ hold
        · rename_i h1 h2 h3
          simp only [h1, h2, h3, if_false]
          by_cases hn : n = s.count
          · subst hn
            simp only [if_true, Option.some.injEq] at hth'
            subst hth'
            exact ⟨_, lookup_assign_self .., Nat.le_refl _⟩
          · simp only [hn, if_false] at hth'
            exact absurd ⟨th, hth', rfl⟩ hold

/-- **C31, partial.** When ids are not reused before the earlier thread under that id has finished: a result (or error)
that a poll returns is the one of the last submission under that id, and once that submission's thread has finished,
the poll of a successful task does return it. -/
theorem poll_result_partial (es : List (Event R E)) (hp : Polite init es) (id : Id) :
    (∀ r, poll (run init es) id = .state .success (some r) none →
      ∃ t, lookup id (run init es).tasks = some t ∧ t.out = .ok r) ∧
    (∀ e, poll (run init es) id = .state .failed none (some e) →
      ∃ t, lookup id (run init es).tasks = some t ∧ t.out = .error e) ∧
    (∀ t th, lookup id (run init es).tasks = some t → (run init es).threads t.sub = some th → th.pc = .finished →
      (∀ r, t.out = .ok r → poll (run init es) id = .state .success (some r) none) ∧
      (∀ e, t.out = .error e → poll (run init es) id = .state .failed none (some e))) := by
  have hi := run_inv es (init_inv (R := R) (E := E))
  have ho := run_own es init_inv ⟨by simp [init], by simp [init, lookup], by simp [init, lookup],
    by simp [init, lookup]⟩ hp
  generalize run (init : State R E) es = s at hi ho
  refine ⟨fun r h => ?_, fun e h => ?_, fun t th hl hth hpc => ?_⟩
  · unfold poll at h
    cases hl : lookup id s.tasks with
    | none => rw [hl] at h; simp at h
    | some t =>
      rw [hl] at h
      simp only [Answer.state.injEq] at h
      refine ⟨t, rfl, ho.result id t r hl ?_⟩
      rw [h.1] at h; simpa using h.2.1
  · unfold poll at h
    cases hl : lookup id s.tasks with
    | none => rw [hl] at h; simp at h
    | some t =>
      rw [hl] at h
      simp only [Answer.state.injEq] at h
      refine ⟨t, rfl, ho.error id t e hl ?_⟩
      rw [h.1] at h; simpa using h.2.2
  · obtain ⟨p, q, q1, q2⟩ := hi.own id t hl
    rw [hth] at q
    have q := Option.some.inj q
    subst q
    simp only at hpc
    subst hpc
    obtain ⟨d1, d2⟩ := ho.done id t _ hl hth rfl
    refine ⟨fun r hr => ?_, fun e he => ?_⟩
    · have : t.status = .success := q1.2 (Or.inr ⟨rfl, r, hr⟩)
      unfold poll; rw [hl]; simp [this, d1 r hr]
    · have : t.status = .failed := q2.2 (Or.inr ⟨rfl, e, he⟩)
      unfold poll; rw [hl]; simp [this, d2 e he]

/-! ### Concrete histories -/

/-- Two jobs after each other; the second is refused while the first runs. -/
def twoJobs : List (Event Nat String) :=
  [.submit "a" true (.ok 1), .step 0, .submit "b" true (.ok 2), .step 0, .step 0, .submit "b" true (.ok 2), .step 1,
   .step 1, .step 1]

example : Polite init twoJobs := by
  simp only [twoJobs, Polite, submit, threadStep, init, write, newTask]
  simp [active, modify, lookup, assign]
  constructor <;>
  · intro n t ht hid
    by_cases hn : n = 0
    · simp only [hn, if_true, Option.some.injEq] at ht; subst ht; simp at hid
    · simp [hn] at ht
example : poll (run init twoJobs) "a" = .state .success (some 1) none ∧
    poll (run init twoJobs) "b" = .state .success (some 2) none := by
  constructor <;> rfl
example : (submit (run init [.submit "a" true (.ok 1), .step 0]) "b" true (.ok 2 : Except String Nat)).2 = .conflict := rfl

/-- **C31, violated** (http.py:694-695): the status is set before the result, so a poll can report success without a
result. -/
theorem success_without_result_violated :
    poll (run init [.submit "a" true (.ok 1), .step 0, .step 0]) "a" = (.state .success none none : Answer Nat String) :=
  rfl

/-- **C31, violated** (http.py:691-699): resubmitting an id that was reported successful while its first thread still has
to write its result makes that thread write into the new entry: the final answer for the second submission, whose
execution returned 2, is the result 1 of the first. -/
theorem stale_result_violated :
    let s : State Nat String := run init [.submit "a" true (.ok 1), .step 0, .step 0, .submit "a" true (.ok 2),
      .step 1, .step 1, .step 1, .step 0]
    poll s "a" = .state .success (some 1) none ∧ ∃ t, lookup "a" s.tasks = some t ∧ t.sub = 1 ∧ t.out = .ok 2 :=
  ⟨rfl, _, rfl, rfl, rfl⟩

end Verif.Worker
