import Verif.Trace.TracerLemmas
import Verif.Interp.Props
/-!
# C08: tracing a function and evaluating the graph is the same as calling the function
-/
namespace Verif.Trace
open Verif.Interp

variable {V C : Type}

/-- **C08** Trace `fn` on example arguments `t`, evaluate the traced function on `t'`, where `t'` has the same structure
and the same constants and every object leaf is a runtime object: the result is that of calling `fn` directly on `t'`
(same structure, same constants, same values; one raises iff the other raises).  Captured objects denote the same runtime
objects in both. -/
theorem trace_then_evaluate (sem : Sem V) (store : Nat → V) (fn : Tree (Option C) → Prog C) (t t' : Tree (Obj V C))
    (tf : Traced V C) (hrun : run fn t = some tf) (hs : shape t' = shape t)
    (hv : ∀ o ∈ t'.leaves, isObj o = true → ∃ v, o = .val v) :
    evaluate sem store tf t' = direct sem store fn t' := by
  obtain ⟨hs1, hs2⟩ := shape_eq hs
  have hnv : (varMorph t isObj).1.length = (t'.leaves.filter isObj).length := by
    rw [morph_variables, ← List.countP_eq_length_filter, ← List.countP_eq_length_filter]
    have := congrArg (List.countP id) hs1
    simpa [List.countP_map] using this.symm
  obtain ⟨lp1, lp2⟩ := liftParams_spec (varMorph t isObj).1.length TSt.init (by rfl)
  simp only [run] at hrun
  generalize hn : (varMorph t isObj).1.length = n at *
  rw [lp1, lp2] at hrun
  have hi0 : SInv n { TSt.init with argCtr := TSt.init.argCtr + n, inputs := (List.range (TSt.init.argCtr + n)).map Nm.arg } := by
    refine ⟨?_, rfl, ?_, ?_⟩ <;> simp [TSt.init]
  cases hb : traceBody V ((List.range' TSt.init.argCtr n).map Nm.arg)
      { TSt.init with argCtr := TSt.init.argCtr + n, inputs := (List.range (TSt.init.argCtr + n)).map Nm.arg }
      (fn (shape t)).body with
  | none => rw [hb] at hrun; simp at hrun
  | some s1 =>
    rw [hb] at hrun
    simp only at hrun
    cases hl : liftList (V := V) ((List.range' TSt.init.argCtr n).map Nm.arg) s1 (fn (shape t)).result.leaves with
    | none => rw [hl] at hrun; simp at hrun
    | some r =>
      obtain ⟨s2, os⟩ := r
      rw [hl] at hrun
      simp only at hrun
      obtain ⟨rt, u1, u2, u3⟩ := unflatten_def (fn (shape t)).result os (liftList_length hl)
      rw [u1] at hrun
      simp only [Option.some.injEq] at hrun
      obtain ⟨b1, -, new, b2, b3⟩ := traceBody_spec (by
        intro x hx; obtain ⟨k, _, hk⟩ := List.mem_map.mp hx; exact ⟨k, hk.symm⟩) _ _ _ hi0 hb
      obtain ⟨c1, c2, c3, c4, ⟨e, c5⟩, c6⟩ := liftList_spec b1 hl
      -- inputs
      have hpv : (varMorph t isObj).2.2.1.mapM (fun i => (t'.leaves[i]?).bind toVal) = some (t'.leaves.filterMap toVal) := by
        have h1 : (varMorph t isObj).2.2.1 = (varMorph t' isObj).2.2.1 := by
          simp only [varMorph]; exact listSplit_idx_congr _ _ _ hs1.symm 0
        rw [h1, mapM_pos toVal _ _ _ (morph_positions t' isObj), morph_variables, mapM_toVal _ hv]
      have hpl : (t'.leaves.filterMap toVal).length = n := by
        rw [hnv]
        have := mapM_toVal _ hv
        have h2 : ∀ (l : List (Obj V C)) (m : List V), l.mapM toVal = some m → m.length = l.length := by
          intro l
          induction l with
          | nil => intro m hm; simp at hm; simp [hm]
          | cons a l ih =>
            intro m hm
            simp only [List.mapM_cons] at hm
            cases ha : toVal a with
            | none => simp [ha] at hm
            | some v =>
              cases hl : l.mapM toVal with
              | none => simp [ha, hl] at hm
              | some w => simp [ha, hl] at hm; simp [← hm, ih w hl]
        exact h2 _ _ this
      generalize hpvd : t'.leaves.filterMap toVal = pv at *
      have hinl : s2.inputs.length = (pv ++ (s2.caps.map Prod.fst).map store).length := by
        rw [c1.inputs, c1.ctr]; simp [hpl]
      subst hrun
      simp only [evaluate, prepareInputs, hpv, direct, hs, hpvd]
      rw [sync_eval_correct]
      simp only [evalSpec, initEnv, hinl, if_true]
      generalize henv : Env.setAll (fun _ => none) (s2.inputs.zip (pv ++ (s2.caps.map Prod.fst).map store)) = env0
      have harg : ∀ k v, (pv ++ (s2.caps.map Prod.fst).map store)[k]? = some v → env0 (.arg k) = some v := by
        intro k v hk
        rw [← henv, c1.inputs]
        refine env0_arg _ _ ?_ k v hk
        rw [← hinl, c1.inputs]; simp
      have hcap : ∀ p ∈ s2.caps, ∃ k, p.2 = Nm.arg k := by
        intro p hp
        have : p.2 ∈ s2.caps.map Prod.snd := List.mem_map_of_mem hp
        rw [c1.caps] at this
        obtain ⟨k, _, hk⟩ := List.mem_map.mp this
        exact ⟨k, hk.symm⟩
      have hcorr : Corr env0 ((List.range' TSt.init.argCtr n).map Nm.arg) pv store s2.caps [] [] := by
        refine ⟨?_, ?_, .nil⟩
        · rw [List.forall₂_iff_get]
          refine ⟨by simp [hpl], ?_⟩
          intro i h1 h2
          simp only [List.get_eq_getElem, List.getElem_map, List.getElem_range', TSt.init, Nat.zero_add, Nat.one_mul]
          apply harg
          rw [List.getElem?_append_left h2]
          simp
        · intro p hp
          obtain ⟨k, hk, hkp⟩ := List.mem_iff_getElem.mp hp
          have h3 : p.2 = .arg (n + k) := by
            have h4 := congrArg (fun l => l[k]?) c1.caps
            simp only [List.getElem?_map, List.getElem?_eq_getElem hk, Option.map_some, hkp] at h4
            rw [List.getElem?_eq_getElem (by simpa using hk)] at h4
            simpa using h4
          rw [h3]
          apply harg
          rw [List.getElem?_append_right (by omega)]
          simp [hpl, List.getElem?_eq_getElem hk, hkp]
      have hmain := b3 sem env0 pv store [] s2.caps 0 hcorr hcap (by
        intro p hp; rw [c5]; exact List.mem_append_left _ hp)
      have hops : s2.ops = new := by rw [c2, b2]; simp [TSt.init]
      rw [hops]
      cases hsl : specLoop sem 0 new env0 with
      | none => rw [hsl] at hmain; simp only at hmain; simp [hmain]
      | some env' =>
        rw [hsl] at hmain
        simp only at hmain
        obtain ⟨rs, m1, m2⟩ := hmain
        simp only [m1]
        have hd := c6 env' pv store rs s2.caps m2 (fun p hp => hp)
        obtain ⟨vs, r1, r2⟩ := den_resolve hd
        have hvars : (varMorph rt isObj).1 = os.filter isObj := by rw [morph_variables, u2]
        rw [hvars, objNames_filter, r1]
        simp only
        obtain ⟨u, e1, e2, e3⟩ := evalTree_leaves _ _ _ r2
        rw [e1]
        obtain ⟨w, d1, d2, d3⟩ := varDemorph_spec rt isObj (vs.map Obj.val) (by
          rw [hvars, ← objNames_length hd]; simp [resolve_length r1])
        rw [d1]
        simp only [Option.some.injEq]
        apply tree_ext
        · rw [d3, u2, result_leaves hd e3 r1]
        · rw [d2, e2, u3]

/-- the objects among the arguments of an eager call -/
def eagerObjs : List (EArg C) → List Nat
  | [] => []
  | .obj id :: r => id :: eagerObjs r
  | .const _ :: r => eagerObjs r

theorem resolve_forall2 {env : Env Nm V} {ns : List Nm} {vs : List V}
    (h : List.Forall₂ (fun n v => env n = some v) ns vs) : resolve env ns = some vs := by
  induction h with
  | nil => rfl
  | cons h1 _ ih => simp only [resolve, h1, ih]

/-- **C08** Eager execution of one primitive call (trace the call, evaluate the one-op graph) applies the primitive to the
runtime objects of the object arguments, in order, repeated arguments included, for every primitive with at least one
output. -/
theorem eager_call_applies (sem : Sem V) (i : Nat) (store : Nat → V) (args : List (EArg C)) (nout : Nat) (hn : 0 < nout) :
    eagerCall sem i store args nout = applyPrim sem i ((eagerObjs args).map store) nout := by
  simp only [eagerCall]
  generalize hins : (⟨args.map EArg.toSrc, nout⟩ : Instr C) = ins
  have hnout : ins.nout = nout := by rw [← hins]
  have hmap : (ins.args.filter srcIsObj).mapM (valOf [] store ([] : List (List V))) = some ((eagerObjs args).map store) := by
    rw [← hins]
    simp only
    clear hins hnout
    induction args with
    | nil => rfl
    | cons a args ih =>
      cases a with
      | obj id => rw [List.map_cons, List.filter_cons_of_pos (by rfl)]; simp [eagerObjs, valOf, EArg.toSrc, ih]
      | const c => rw [List.map_cons, List.filter_cons_of_neg (by simp [srcIsObj, EArg.toSrc])]; simpa [eagerObjs] using ih
  have hlift : ∀ (xs : List (EArg C)) (s : TSt), liftList (V := V) []  s
      (xs.map EArg.toSrc) ≠ none := by
    intro xs
    induction xs with
    | nil => simp [liftList]
    | cons a xs ih =>
      intro s
      have hsrc : ∃ r, liftSrc (V := V) [] s a.toSrc = some r := by
        cases a with
        | obj id => exact ⟨_, rfl⟩
        | const c => exact ⟨_, rfl⟩
      obtain ⟨r, hr⟩ := hsrc
      rw [List.map_cons, liftList, hr]
      simp only
      have h2 := ih r.1
      split
      · rename_i h3; exact absurd h3 h2
      · simp
  cases hb : bindPrim V [] TSt.init ins with
  | none =>
    exfalso
    simp only [bindPrim] at hb
    have := hlift args TSt.init
    rw [← hins] at hb
    simp only at hb
    split at hb
    · rename_i h; exact this h
    · simp at hb
  | some s =>
    simp only
    have hb' : traceBody V [] TSt.init [ins] = some s := by simp [traceBody, hb]
    have hi0 : SInv 0 TSt.init := by refine ⟨?_, rfl, ?_, ?_⟩ <;> simp [TSt.init]
    obtain ⟨b1, -, new, b2, b3⟩ := traceBody_spec (by simp) _ _ _ hi0 hb'
    -- shape of the final state
    simp only [bindPrim] at hb
    cases hl : liftList (V := V) [] TSt.init ins.args with
    | none => simp [hl] at hb
    | some r =>
      obtain ⟨t, os⟩ := r
      simp only [hl, Option.some.injEq] at hb
      obtain ⟨c1, c2, c3, c4, -, -⟩ := liftList_spec hi0 hl
      have hres : s.results = [(List.range' 0 nout).map Nm.val] := by
        rw [← hb]; simp [c4, c3, hnout, TSt.init]
      have hne : s.results.flatten ≠ [] := by
        rw [hres]; simp; omega
      rw [if_neg hne, sync_eval_correct]
      have hinl : s.inputs.length = (s.caps.map fun p => store p.1).length := by
        rw [b1.inputs, b1.ctr]; simp
      simp only [evalSpec, initEnv, hinl, if_true]
      generalize henv : Env.setAll (fun _ => none) (s.inputs.zip (s.caps.map fun p => store p.1)) = env0
      have harg : ∀ k v, (s.caps.map fun p => store p.1)[k]? = some v → env0 (.arg k) = some v := by
        intro k v hk
        rw [← henv, b1.inputs]
        refine env0_arg _ _ ?_ k v hk
        rw [← hinl, b1.inputs]; simp
      have hcap : ∀ p ∈ s.caps, ∃ k, p.2 = Nm.arg k := by
        intro p hp
        have : p.2 ∈ s.caps.map Prod.snd := List.mem_map_of_mem hp
        rw [b1.caps] at this
        obtain ⟨k, _, hk⟩ := List.mem_map.mp this
        exact ⟨k, hk.symm⟩
      have hcorr : Corr env0 [] [] store s.caps TSt.init.results [] := by
        refine ⟨.nil, ?_, .nil⟩
        intro p hp
        obtain ⟨k, hk, hkp⟩ := List.mem_iff_getElem.mp hp
        have h3 : p.2 = .arg k := by
          have h4 := congrArg (fun l => l[k]?) b1.caps
          simp only [List.getElem?_map, List.getElem?_eq_getElem hk, Option.map_some, hkp] at h4
          rw [List.getElem?_eq_getElem (by simpa using hk)] at h4
          simpa using h4
        rw [h3]
        apply harg
        simp [List.getElem?_eq_getElem hk, hkp]
      have hmain := b3 (semAt sem i) env0 [] store [] s.caps 0 hcorr hcap (fun p hp => hp)
      have hops : s.ops = new := by rw [b2]; simp [TSt.init]
      rw [hops]
      simp only [directBody, hmap, hnout] at hmain
      have happ : applyPrim (semAt sem i) 0 ((eagerObjs args).map store) nout
          = applyPrim sem i ((eagerObjs args).map store) nout := rfl
      rw [happ] at hmain
      cases hsl : specLoop (semAt sem i) 0 new env0 with
      | none =>
        rw [hsl] at hmain
        simp only at hmain
        split at hmain
        · rename_i h; simp [h]
        · simp at hmain
      | some env' =>
        rw [hsl] at hmain
        simp only at hmain
        obtain ⟨rs, m1, m2⟩ := hmain
        split at m1
        · simp at m1
        · rename_i outs h
          simp only [List.nil_append, Option.some.injEq] at m1
          rw [h]
          simp only
          have h5 := m2.res
          rw [hres, ← m1] at h5
          rw [hres, List.flatten_cons, List.flatten_nil, List.append_nil]
          cases h5 with
          | cons h6 _ => exact resolve_forall2 h6

/-- **C08** (violated part) A primitive without outputs is *not executed* eagerly: the call returns normally although the
handler raises (`if graph.outputs:` in runtime/interpreter.py:726), whereas the traced graph does run it. -/
theorem eager_call_no_output_violated :
    ∃ (sem : Sem Nat) (store : Nat → Nat) (args : List (EArg Unit)),
      eagerCall sem 0 store args 0 = some [] ∧ applyPrim sem 0 ((eagerObjs args).map store) 0 = none := by
  refine ⟨⟨fun _ => true, fun _ _ => none, fun _ => none⟩, fun _ => 7, [.obj 1], ?_, ?_⟩
  · rfl
  · rfl

/-! Non-vacuity: `fn(x, [y, "k"]) = {"a": add(x, c), "b": "k", "c": c}` with a captured `c` used twice, op 0 = add. -/

/-- example handlers: op 0 adds its arguments -/
def exSem : Sem Nat := ⟨fun _ => true, fun _ args => some args.sum, fun _ => none⟩
/-- example function -/
def exFn : Tree (Option String) → Prog String := fun _ =>
  ⟨[⟨[.param 0, .cap 5, .const "z"], 1⟩, ⟨[.res 0 0, .param 1, .cap 5], 1⟩],
    .node "dict:a,b,c" [.leaf (.res 1 0), .leaf (.const "k"), .leaf (.cap 5)]⟩
/-- example arguments -/
def exArgs (x y : Nat) : Tree (Obj Nat String) :=
  .node "tuple" [.leaf (.val x), .node "list" [.leaf (.val y), .leaf (.const "k")]]

example : (run exFn (exArgs 0 0)).isSome = true ∧ shape (exArgs 1 2) = shape (exArgs 0 0) ∧
    (∀ o ∈ (exArgs 1 2).leaves, isObj o = true → ∃ v, o = .val v) ∧
    direct exSem (fun _ => 100) exFn (exArgs 1 2)
      = some (.node "dict:a,b,c" [.leaf (.val 203), .leaf (.const "k"), .leaf (.val 100)]) := by
  refine ⟨rfl, rfl, ?_, rfl⟩
  intro o ho h
  simp only [exArgs, Tree.leaves, leavesL, List.append_nil, List.cons_append, List.nil_append, List.mem_cons,
    List.not_mem_nil, or_false] at ho
  rcases ho with rfl | rfl | rfl
  · exact ⟨_, rfl⟩
  · exact ⟨_, rfl⟩
  · simp [isObj] at h

example : eagerCall (C := Unit) exSem 0 (fun id => id * 10) [.obj 3, .const (), .obj 3, .obj 4] 1 = some [100] := rfl

end Verif.Trace
