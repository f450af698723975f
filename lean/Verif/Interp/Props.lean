import Verif.Interp.AsyncPres
/-!
# C11, C12, C13: graph evaluation

The specification is `evalSpec` (`Verif/Interp/Spec.lean`): run the ops one after the other, keep every value.
-/
namespace Verif.Interp
section
variable {N V : Type} [DecidableEq N]

/-- **C11** Synchronous evaluation with eager release of dead values computes the dataflow meaning of *every* graph
(also when it raises). -/
theorem sync_eval_correct (sem : Sem V) (g : Graph N) (args : List V) : evalSync sem g args = evalSpec sem g args := by
  simp only [evalSync, evalSpec]
  cases h0 : initEnv g args with
  | none => rfl
  | some env =>
    simp only
    have := syncLoop_spec sem g.outputs g.ops 0 env (env, gcInfo g) (fun v => rfl) (fun v _ => rfl)
    cases hs : syncLoop sem 0 g.ops (env, gcInfo g) with
    | none =>
      cases hp : specLoop sem 0 g.ops env with
      | none => rfl
      | some e => simp [hs, hp] at this
    | some s =>
      cases hp : specLoop sem 0 g.ops env with
      | none => simp [hs, hp] at this
      | some e =>
        simp only [hs, hp] at this
        exact resolve_congr _ _ _ this

/-- what must go right in the handlers: every op has one, it never raises and returns as many results as declared -/
def HandlersOk (sem : Sem V) (g : Graph N) : Prop :=
  ∀ i op, g.ops[i]? = some op → sem.impl i = true ∧
    ∀ args, ∃ res, sem.run i args = some res ∧ (bindOuts sem op.outs res).isSome = true

theorem den_defined (sem : Sem V) (g : Graph N) (hok : HandlersOk sem g) (hwf : WF g) (pre post : List (Op N))
    (hsplit : g.ops = pre ++ post) (env : Env N V) (hin : ∀ v ∈ g.inputs, (env v).isSome = true) :
    ∀ v ∈ defined g pre, (denLoop sem 0 pre env v).isSome = true := by
  induction hn : pre.length generalizing pre post with
  | zero =>
    have : pre = [] := List.length_eq_zero_iff.mp hn
    subst this
    intro v hv
    simp only [defined, List.flatMap_nil, List.append_nil] at hv
    exact hin v hv
  | succ n ih =>
    obtain ⟨pre', o, rfl⟩ : ∃ p o, pre = p ++ [o] := by
      rcases List.eq_nil_or_concat pre with h | ⟨p, o, h⟩
      · simp [h] at hn
      · exact ⟨p, o, by simpa using h⟩
    have hsplit' : g.ops = pre' ++ o :: post := by rw [hsplit]; simp
    have ih' := ih pre' (o :: post) hsplit' (by simpa using hn)
    have huse := hwf.uses pre' o post hsplit'
    obtain ⟨himpl, hrun⟩ := hok pre'.length o (by rw [hsplit']; simp)
    have hres : (resolve (denLoop sem 0 pre' env) o.ins).isSome = true :=
      (resolve_isSome_iff _ _).mpr fun v hv => ih' v (huse v hv)
    obtain ⟨as, has⟩ := Option.isSome_iff_exists.mp hres
    obtain ⟨res, hr, hb⟩ := hrun as
    obtain ⟨bs, hbs⟩ := Option.isSome_iff_exists.mp hb
    have hop : opOk sem (denLoop sem 0 pre' env) pre'.length o = some bs := by simp [opOk, has, himpl, hr, hbs]
    intro v hv
    rw [denLoop_append]
    simp only [Nat.zero_add, denLoop, hop]
    by_cases hm : v ∈ o.outs
    · apply setAll_mem_isSome
      rw [opOk_fst _ _ _ _ _ hop]; exact hm
    · rw [setAll_not_mem _ _ _ (by rw [opOk_fst _ _ _ _ _ hop]; exact hm)]
      apply ih'
      simp only [defined, List.flatMap_append, List.mem_append, List.flatMap_cons, List.flatMap_nil, List.append_nil]
        at hv ⊢
      rcases hv with hv | hv | hv
      · exact .inl hv
      · exact .inr hv
      · exact absurd hv hm

/-- **C11** A well-formed graph never fails for a missing value: if the handlers do their job and the number of arguments
is right, evaluation with release returns a result. -/
theorem sync_eval_never_missing (sem : Sem V) (g : Graph N) (hwf : WF g) (hok : HandlersOk sem g) (args : List V)
    (hlen : g.inputs.length = args.length) : ∃ outs, evalSync sem g args = some outs := by
  rw [sync_eval_correct]
  simp only [evalSpec]
  have h0 : initEnv g args = some (Env.setAll (fun _ => none) (g.inputs.zip args)) := by simp [initEnv, hlen]
  generalize Env.setAll (fun _ => none) (g.inputs.zip args) = env at h0
  simp only [h0]
  have hin := initEnv_isSome g args env h0
  have hall : AllOk sem g env := by
    intro i op hop
    obtain ⟨himpl, hrun⟩ := hok i op hop
    have hd := den_defined sem g hok hwf g.ops [] (by simp) env hin
    have hres : (resolve (denLoop sem 0 g.ops env) op.ins).isSome = true := by
      refine (resolve_isSome_iff _ _).mpr fun v hv => hd v ?_
      obtain ⟨hi, hget⟩ := List.getElem?_eq_some_iff.mp hop
      have hsplit : g.ops = g.ops.take i ++ op :: g.ops.drop (i + 1) := by
        rw [← hget, List.getElem_cons_drop, List.take_append_drop]
      have := hwf.uses _ _ _ hsplit v hv
      simp only [defined, List.mem_append, List.mem_flatMap] at this ⊢
      rcases this with h | ⟨o, ho, hv⟩
      · exact .inl h
      · exact .inr ⟨o, List.mem_of_mem_take ho, hv⟩
    obtain ⟨as, has⟩ := Option.isSome_iff_exists.mp hres
    obtain ⟨res, hr, hb⟩ := hrun as
    obtain ⟨bs, hbs⟩ := Option.isSome_iff_exists.mp hb
    exact ⟨bs, by simp [opOk, has, himpl, hr, hbs]⟩
  obtain ⟨env', henv'⟩ := Option.isSome_iff_exists.mp ((specLoop_some_iff_allOk sem g hwf env).mpr hall)
  simp only [henv']
  have hden := specLoop_eq_denLoop sem 0 g.ops env env' henv'
  apply Option.isSome_iff_exists.mp
  rw [resolve_isSome_iff]
  intro v hv
  rw [← hden]
  exact den_defined sem g hok hwf g.ops [] (by simp) env hin v (hwf.outs v hv)

theorem evalSpec_some_iff (sem : Sem V) (g : Graph N) (hwf : WF g) (args : List V) (env0 : Env N V)
    (h0 : initEnv g args = some env0) (r : List V) :
    evalSpec sem g args = some r ↔ AllOk sem g env0 ∧ resolve (denLoop sem 0 g.ops env0) g.outputs = some r := by
  simp only [evalSpec, h0]
  have := specLoop_some_iff_allOk sem g hwf env0
  cases hs : specLoop sem 0 g.ops env0 with
  | none => simp only [hs, Option.isSome_none, Bool.false_eq_true, false_iff] at this; simp [this]
  | some e =>
    simp only [hs, Option.isSome_some, true_iff] at this
    rw [specLoop_eq_denLoop _ _ _ _ _ hs]
    simp [this]

/-- **C12** Whatever the schedule: if asynchronous evaluation returns, it returns what sequential evaluation returns. -/
theorem async_returns_spec (sem : Sem V) (isAsync : Nat → Bool) (g : Graph N) (hwf : WF g) (args : List V)
    (env0 : Env N V) (h0 : initEnv g args = some env0) (s : St N V) (hr : Reach sem isAsync g (initSt g env0) s)
    (outs : List V) (hm : s.main = .returned outs) : evalSpec sem g args = some outs := by
  obtain ⟨C, hC⟩ := inv_reach hwf h0 hr
  exact (evalSpec_some_iff sem g hwf args env0 h0 outs).mpr (hC.returned outs hm)

/-- **C12/C13** Whatever the schedule: if asynchronous evaluation raises, sequential evaluation raises. -/
theorem async_raises_spec (sem : Sem V) (isAsync : Nat → Bool) (g : Graph N) (hwf : WF g) (args : List V)
    (env0 : Env N V) (h0 : initEnv g args = some env0) (s : St N V) (hr : Reach sem isAsync g (initSt g env0) s)
    (hm : s.main = .raised) : evalSpec sem g args = none := by
  obtain ⟨C, hC⟩ := inv_reach hwf h0 hr
  cases he : evalSpec sem g args with
  | none => rfl
  | some r => exact absurd ((evalSpec_some_iff sem g hwf args env0 h0 r).mp he).1 (hC.raised hm)

/-- **C12** The synchronous and the asynchronous evaluator agree. -/
theorem async_agrees_with_sync (sem : Sem V) (isAsync : Nat → Bool) (g : Graph N) (hwf : WF g) (args : List V)
    (env0 : Env N V) (h0 : initEnv g args = some env0) (s : St N V) (hr : Reach sem isAsync g (initSt g env0) s) :
    (∀ outs, s.main = .returned outs → evalSync sem g args = some outs) ∧
    (s.main = .raised → evalSync sem g args = none) := by
  rw [sync_eval_correct]
  exact ⟨fun o hm => async_returns_spec sem isAsync g hwf args env0 h0 s hr o hm,
    async_raises_spec sem isAsync g hwf args env0 h0 s hr⟩

/-- **C13** Never stuck: as long as the caller is waiting, some action is possible. -/
theorem async_progress (sem : Sem V) (isAsync : Nat → Bool) (g : Graph N) (hwf : WF g) (args : List V)
    (env0 : Env N V) (h0 : initEnv g args = some env0) (s : St N V) (hr : Reach sem isAsync g (initSt g env0) s)
    (hm : s.main = .loop) : ∃ s', Step sem isAsync g s s' := by
  obtain ⟨C, hC⟩ := inv_reach hwf h0 hr
  have hrunning : ∀ i, i ∈ s.running.map Prod.fst → ∃ s', Step sem isAsync g s s' := by
    intro i hi
    obtain ⟨⟨j, as⟩, hmem, rfl⟩ := List.mem_map.mp hi
    obtain ⟨l, r, hlr⟩ := List.append_of_mem hmem
    have hlt := (hC.ready j (by simp [hi])).1
    exact ⟨_, .complete hlr (List.getElem?_eq_getElem hlt)⟩
  cases hb : s.busy with
  | some i => exact hrunning i (hC.busy i hb)
  | none =>
    cases hq : s.queue with
    | cons x q =>
      cases x with
      | done => exact ⟨_, .takeDone hm hb hq⟩
      | err => exact ⟨_, .takeErr hm hb hq⟩
      | op i =>
        have hlt := (hC.ready i (by simp [hq, qops_op])).1
        have hop := List.getElem?_eq_getElem hlt
        cases ha : resolve s.env (g.ops[i]).ins with
        | none => exact ⟨_, .takeMissing hm hb hq hop ha⟩
        | some as =>
          cases hi : sem.impl i with
          | false => exact ⟨_, .takeNoImpl hm hb hq hop ha hi⟩
          | true => exact ⟨_, .takeOp hm hb hq hop ha hi⟩
    | nil =>
      cases hrun : s.running with
      | cons p r => exact hrunning p.1 (by simp [hrun])
      | nil =>
        exfalso
        have herr : s.err = false := by
          cases he : s.err with
          | false => rfl
          | true => have := hC.err2 he hm; simp [hq] at this
        have hall := hC.all herr hm
        simp only [hq, hrun, qops, List.filterMap_nil, List.map_nil, List.nil_append] at hall
        -- every op is complete, by strong induction
        have hcomp : ∀ j, j < g.ops.length → j ∈ C := by
          intro j
          induction j using Nat.strongRecOn with
          | ind j ih =>
            intro hj
            apply hall j hj
            have hop := List.getElem?_eq_getElem hj
            simp only [pc, hop, List.length_eq_zero_iff, List.filter_eq_nil_iff]
            intro v hv
            have hsplit : g.ops = g.ops.take j ++ g.ops[j] :: g.ops.drop (j + 1) := by
              rw [List.getElem_cons_drop, List.take_append_drop]
            have hd := hwf.uses _ _ _ hsplit v hv
            simp only [defined, List.mem_append, List.mem_flatMap] at hd
            have : avail g C v = true := by
              rw [avail_iff]
              rcases hd with h | ⟨o, ho, hvo⟩
              · exact .inl h
              · obtain ⟨k, hk, hget⟩ := List.mem_iff_getElem.mp ho
                simp only [List.length_take] at hk
                simp only [List.getElem_take] at hget
                exact .inr ⟨k, ih k (by omega) (by omega), o, by rw [← hget]; exact List.getElem?_eq_getElem _, hvo⟩
            simp [this]
        have hsub : List.range g.ops.length ⊆ C := fun j hj => hcomp j (List.mem_range.mp hj)
        have h1 := (List.subperm_of_subset List.nodup_range hsub).length_le
        simp only [List.length_range] at h1
        have h2 := hC.rem
        have := hC.done2 hm (by omega)
        simp [hq] at this

/-- executions of exactly `k` actions -/
inductive ReachN (sem : Sem V) (isAsync : Nat → Bool) (g : Graph N) (s0 : St N V) : Nat → St N V → Prop
  | init : ReachN sem isAsync g s0 0 s0
  | step {k : Nat} {s s' : St N V} : ReachN sem isAsync g s0 k s → Step sem isAsync g s s' →
      ReachN sem isAsync g s0 (k + 1) s'

theorem ReachN.reach {sem : Sem V} {isAsync : Nat → Bool} {g : Graph N} {s0 : St N V} {k : Nat} {s : St N V}
    (h : ReachN sem isAsync g s0 k s) : Reach sem isAsync g s0 s := by
  induction h with
  | init => exact .init
  | step _ hs ih => exact .step ih hs

/-- **C13** Every execution is finite: at most `2·|ops| + 1` actions. -/
theorem async_terminates (sem : Sem V) (isAsync : Nat → Bool) (g : Graph N) (hwf : WF g) (args : List V)
    (env0 : Env N V) (h0 : initEnv g args = some env0) (k : Nat) (s : St N V)
    (hr : ReachN sem isAsync g (initSt g env0) k s) : k ≤ 2 * g.ops.length + 1 := by
  suffices h : k + 2 * (g.ops.length - s.log.length) + s.running.length + (match s.main with | .loop => 1 | _ => 0)
      ≤ 2 * g.ops.length + 1 by omega
  induction hr with
  | init => simp [initSt]
  | @step k s s' hr hs ih =>
    have hreach : Reach sem isAsync g (initSt g env0) s' := .step hr.reach hs
    obtain ⟨C, hC⟩ := inv_reach hwf h0 hreach
    have hlog : s'.log.length ≤ g.ops.length := by
      have hnd : s'.log.Nodup := (List.nodup_append.mp hC.logNd).2.1
      have hsub : s'.log ⊆ List.range g.ops.length := fun j hj => List.mem_range.mpr (hC.logPc j hj).1
      simpa using (List.subperm_of_subset hnd hsub).length_le
    cases hs with
    | takeOp hm hb hq hop ha hi =>
      simp only [hm, List.length_cons] at ih hlog ⊢
      omega
    | takeMissing hm hb hq hop ha => simp only [hm] at ih ⊢; omega
    | takeNoImpl hm hb hq hop ha hi => simp only [hm] at ih ⊢; omega
    | takeDone hm hb hq =>
      simp only [hm] at ih ⊢
      cases hres : resolve s.env g.outputs <;> simp only <;> omega
    | takeErr hm hb hq => simp only [hm] at ih ⊢; omega
    | @complete i args op l r hrun hop =>
      have hkeep : ∀ (res : Option V) (t : St N V), (onDone sem g op res t).log = t.log ∧
          (onDone sem g op res t).running = t.running ∧ (onDone sem g op res t).main = t.main := by
        intro res t
        simp only [onDone, onErr]
        split
        · split <;> simp
        · split
          · simp
          · split
            · simp
            · simp [onOk]
      obtain ⟨h1, h2, h3⟩ := hkeep (sem.run i args)
        { s with running := l ++ r, busy := if s.busy = some i then none else s.busy }
      rw [h1, h2, h3]
      simp only [hrun, List.length_append, List.length_cons] at ih ⊢
      omega

/-- **C13** No op is ever started twice, and when the caller gets its results every op was started exactly once. -/
theorem async_each_op_once (sem : Sem V) (isAsync : Nat → Bool) (g : Graph N) (hwf : WF g) (args : List V)
    (env0 : Env N V) (h0 : initEnv g args = some env0) (s : St N V) (hr : Reach sem isAsync g (initSt g env0) s) :
    s.log.Nodup ∧ ∀ i ∈ s.log, i < g.ops.length := by
  obtain ⟨C, hC⟩ := inv_reach hwf h0 hr
  exact ⟨(List.nodup_append.mp hC.logNd).2.1, fun i hi => (hC.logPc i hi).1⟩

theorem returned_full (sem : Sem V) (isAsync : Nat → Bool) (g : Graph N) (hwf : WF g) (args : List V)
    (env0 : Env N V) (h0 : initEnv g args = some env0) (s : St N V) (hr : Reach sem isAsync g (initSt g env0) s)
    (outs : List V) (hm : s.main = .returned outs) : s.remOps = 0 := by
  have hkeep : ∀ (op : Op N) (res : Option V) (t : St N V), (onDone sem g op res t).main = t.main ∧
      ((onDone sem g op res t).remOps ≤ t.remOps) := by
    intro op res t
    simp only [onDone, onErr]
    split
    · split <;> simp
    · split
      · simp
      · split
        · simp
        · simp [onOk]
  induction hr with
  | init => simp [initSt] at hm
  | @step s s' hr hs ih =>
    cases hs with
    | takeOp h => simp [h] at hm
    | takeMissing h => simp at hm
    | takeNoImpl h => simp at hm
    | @takeDone q h hb hq =>
      obtain ⟨C, hC⟩ := inv_reach hwf h0 hr
      have h1 := hC.done1 (by rw [hq]; simp)
      have h2 := hC.rem
      show s.remOps = 0
      omega
    | takeErr h => simp at hm
    | @complete i args op l r hrun hop =>
      obtain ⟨h1, h2⟩ := hkeep op (sem.run i args)
        { s with running := l ++ r, busy := if s.busy = some i then none else s.busy }
      rw [h1] at hm
      have h3 := ih hm
      have h4 : _ ≤ s.remOps := h2
      omega

/-- **C13** … exactly once: at return the started ops are a permutation of all ops. -/
theorem async_returned_all_ops (sem : Sem V) (isAsync : Nat → Bool) (g : Graph N) (hwf : WF g) (args : List V)
    (env0 : Env N V) (h0 : initEnv g args = some env0) (s : St N V) (hr : Reach sem isAsync g (initSt g env0) s)
    (outs : List V) (hm : s.main = .returned outs) : s.log.Perm (List.range g.ops.length) := by
  have hrem := returned_full sem isAsync g hwf args env0 h0 s hr outs hm
  obtain ⟨C, hC⟩ := inv_reach hwf h0 hr
  have hl := hC.rem
  have hnd : C.Nodup := (List.nodup_append.mp hC.nodup).2.1
  have hsub : C ⊆ s.log := fun j hj => hC.logC j (by simp [hj])
  have h1 := (List.subperm_of_subset hnd hsub).length_le
  have hndl : s.log.Nodup := (List.nodup_append.mp hC.logNd).2.1
  have hsubl : s.log ⊆ List.range g.ops.length := fun j hj => List.mem_range.mpr (hC.logPc j hj).1
  exact (List.subperm_of_subset hndl hsubl).perm_of_length_le (by simp; omega)

/-- **C13** A schedule that cannot be continued has delivered the right outcome to the caller: the sequential result, or
an error exactly when sequential evaluation fails. -/
theorem async_outcome (sem : Sem V) (isAsync : Nat → Bool) (g : Graph N) (hwf : WF g) (args : List V)
    (env0 : Env N V) (h0 : initEnv g args = some env0) (s : St N V) (hr : Reach sem isAsync g (initSt g env0) s)
    (hstuck : ¬ ∃ s', Step sem isAsync g s s') :
    (∃ outs, s.main = .returned outs ∧ evalSpec sem g args = some outs) ∨
    (s.main = .raised ∧ evalSpec sem g args = none) := by
  cases hm : s.main with
  | loop => exact absurd (async_progress sem isAsync g hwf args env0 h0 s hr hm) hstuck
  | returned outs => exact .inl ⟨outs, rfl, async_returns_spec sem isAsync g hwf args env0 h0 s hr outs hm⟩
  | raised => exact .inr ⟨rfl, async_raises_spec sem isAsync g hwf args env0 h0 s hr hm⟩

end

/-! ### Non-vacuity: a diamond with a duplicated operand, an unused result and an input that is also an output -/

def exGraph : Graph Nat where
  inputs := [0, 1]
  ops := [⟨[0, 1], [2]⟩, ⟨[2, 2], [3]⟩, ⟨[2, 0], [4, 5]⟩, ⟨[3, 4], [6]⟩]
  outputs := [6, 0, 6]

/-- values are lists of numbers; op 2 returns a pair, the others the sum of everything plus the op number -/
def exSem : Sem (List Nat) where
  impl := fun _ => true
  run := fun i args => if i = 2 then some [args.flatten.sum, 7] else some [args.flatten.sum + i]
  asSeq := fun v => some (v.map fun x => [x])

theorem exGraph_wf : WF exGraph := by
  refine ⟨by decide, ?_, by decide⟩
  intro pre op post h
  rcases pre with _ | ⟨a, _ | ⟨b, _ | ⟨c, _ | ⟨d, pre⟩⟩⟩⟩ <;> simp [exGraph] at h
  · obtain ⟨rfl, rfl⟩ := h; decide
  · obtain ⟨rfl, rfl, rfl⟩ := h; decide
  · obtain ⟨rfl, rfl, rfl, rfl⟩ := h; decide
  · obtain ⟨rfl, rfl, rfl, rfl, rfl⟩ := h; decide

example : evalSync exSem exGraph [[10], [20]] = some [[104], [10], [104]] := by decide
example : HandlersOk exSem exGraph := by
  intro i op hop
  refine ⟨rfl, fun args => ?_⟩
  rcases i with _ | _ | _ | _ | i <;> simp [exGraph] at hop
  all_goals subst hop
  all_goals simp [exSem, bindOuts]
example : (initEnv exGraph [[10], [20]]).isSome = true := by decide

/-- a two-action execution of the example: start op 0, complete it; now ops 1 and 2 are ready -/
example (env0 : Env Nat (List Nat)) (h0 : initEnv exGraph [[10], [20]] = some env0) :
    ∃ s, ReachN exSem (fun _ => true) exGraph (initSt exGraph env0) 2 s ∧ s.queue = [.op 1, .op 2] := by
  simp only [initEnv, exGraph, List.length_cons, List.length_nil, if_true, Option.some.injEq] at h0
  subst h0
  refine ⟨_, .step (.step .init (.takeOp (i := 0) (q := []) (op := ⟨[0, 1], [2]⟩) (args := [[10], [20]])
    rfl rfl (by decide) rfl (by decide) rfl))
    (.complete (l := []) (r := []) (i := 0) (args := [[10], [20]]) (op := ⟨[0, 1], [2]⟩) rfl rfl), ?_⟩
  rfl

end Verif.Interp
