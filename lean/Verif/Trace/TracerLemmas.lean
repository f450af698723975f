import Verif.Trace.TracerSpec
import Mathlib.Data.List.Forall2
import Mathlib.Data.List.Nodup
/-! Helper lemmas for C08. -/
namespace Verif.Trace
open Verif.Interp

variable {V C : Type}

/-- state invariant of the tracer with `np` parameters -/
structure SInv (np : Nat) (s : TSt) : Prop where
  ctr : s.argCtr = np + s.caps.length
  inputs : s.inputs = (List.range s.argCtr).map Nm.arg
  caps : s.caps.map Prod.snd = (List.range' np s.caps.length).map Nm.arg
  res : ∀ nms ∈ s.results, ∀ n ∈ nms, ∃ k, n = .val k ∧ k < s.vc

/-- the environment knows parameters, captures and results -/
structure Corr (env : Env Nm V) (params : List Nm) (pv : List V) (store : Nat → V) (caps : List (Nat × Nm))
    (results : List (List Nm)) (rs : List (List V)) : Prop where
  par : List.Forall₂ (fun n v => env n = some v) params pv
  cap : ∀ p ∈ caps, env p.2 = some (store p.1)
  res : List.Forall₂ (fun nms vs => List.Forall₂ (fun n v => env n = some v) nms vs) results rs

/-- an expression and its lifted form denote the same value -/
def Den (env : Env Nm V) (pv : List V) (store : Nat → V) (rs : List (List V)) (x : Src C) (o : Obj V C) : Prop :=
  (∃ c, x = .const c ∧ o = .const c) ∨
  (srcIsObj x = true ∧ ∃ n v, o = .nm n ∧ env n = some v ∧ valOf pv store rs x = some v)

theorem forall2_get {α β : Type} {R : α → β → Prop} {l : List α} {m : List β} (h : List.Forall₂ R l m) {k : Nat} {a : α}
    (hk : l[k]? = some a) : ∃ b, m[k]? = some b ∧ R a b := by
  induction h generalizing k with
  | nil => simp at hk
  | cons hr _ ih =>
    cases k with
    | zero => simp only [List.getElem?_cons_zero, Option.some.injEq] at hk; subst hk; exact ⟨_, by simp, hr⟩
    | succ k => simp only [List.getElem?_cons_succ] at hk ⊢; exact ih hk

theorem lookup_mem {l : List (Nat × Nm)} {id : Nat} {n : Nm} (h : l.lookup id = some n) : (id, n) ∈ l := by
  induction l with
  | nil => simp at h
  | cons p l ih =>
    obtain ⟨a, b⟩ := p
    simp only [List.lookup_cons] at h
    split at h
    · rename_i heq
      simp only [Option.some.injEq] at h
      have : id = a := by simpa using heq
      subst this; subst h; simp
    · exact List.mem_cons_of_mem _ (ih h)

theorem liftSrc_spec {np : Nat} {params : List Nm} {s s1 : TSt} {x : Src C} {o : Obj V C} (hi : SInv np s)
    (h : liftSrc params s x = some (s1, o)) :
    SInv np s1 ∧ s1.ops = s.ops ∧ s1.vc = s.vc ∧ s1.results = s.results ∧ (∃ e, s1.caps = s.caps ++ e) ∧
    ∀ (env : Env Nm V) pv store rs caps, Corr env params pv store caps s.results rs → (∀ p ∈ s1.caps, p ∈ caps) →
      Den env pv store rs x o := by
  cases x with
  | param k =>
    simp only [liftSrc, Option.map_eq_some_iff, Prod.mk.injEq] at h
    obtain ⟨n, hn, rfl, rfl⟩ := h
    refine ⟨hi, rfl, rfl, rfl, ⟨[], by simp⟩, ?_⟩
    intro env pv store rs caps hc _
    obtain ⟨v, hv, hr⟩ := forall2_get hc.par hn
    exact Or.inr ⟨rfl, n, v, rfl, hr, hv⟩
  | cap id =>
    simp only [liftSrc, Option.some.injEq, Prod.mk.injEq] at h
    obtain ⟨h1, h2⟩ := h
    simp only [liftCap] at h1 h2
    cases hl : s.caps.lookup id with
    | some nm =>
      rw [hl] at h1 h2
      simp only at h1 h2
      subst h1; subst h2
      refine ⟨hi, rfl, rfl, rfl, ⟨[], by simp⟩, ?_⟩
      intro env pv store rs caps hc hsub
      exact Or.inr ⟨rfl, nm, store id, rfl, hc.cap _ (hsub _ (lookup_mem hl)), rfl⟩
    | none =>
      rw [hl] at h1 h2
      simp only [newArg] at h1 h2
      subst h1; subst h2
      refine ⟨⟨?_, ?_, ?_, hi.res⟩, rfl, rfl, rfl, ⟨_, rfl⟩, ?_⟩
      · simp [hi.ctr]; omega
      · simp [hi.inputs, List.range_succ]
      · simp only [List.map_append, hi.caps, List.map_cons, List.map_nil, List.length_append, List.length_cons,
          List.length_nil, Nat.zero_add, List.range'_concat, hi.ctr]
        simp
      · intro env pv store rs caps hc hsub
        exact Or.inr ⟨rfl, _, store id, rfl, hc.cap (id, .arg s.argCtr) (hsub _ (by simp)), rfl⟩
  | res i j =>
    simp only [liftSrc, Option.map_eq_some_iff, Prod.mk.injEq] at h
    obtain ⟨n, hn, rfl, rfl⟩ := h
    refine ⟨hi, rfl, rfl, rfl, ⟨[], by simp⟩, ?_⟩
    intro env pv store rs caps hc _
    obtain ⟨nms, h1, h2⟩ := Option.bind_eq_some_iff.mp hn
    obtain ⟨vs, g1, g2⟩ := forall2_get hc.res h1
    obtain ⟨v, k1, k2⟩ := forall2_get g2 h2
    exact Or.inr ⟨rfl, n, v, rfl, k2, by simp [valOf, g1, k1]⟩
  | const c =>
    simp only [liftSrc, Option.some.injEq, Prod.mk.injEq] at h
    obtain ⟨rfl, rfl⟩ := h
    exact ⟨hi, rfl, rfl, rfl, ⟨[], by simp⟩, fun _ _ _ _ _ _ _ => Or.inl ⟨c, rfl, rfl⟩⟩

theorem liftList_spec {np : Nat} {params : List Nm} {xs : List (Src C)} {s s1 : TSt} {os : List (Obj V C)}
    (hi : SInv np s) (h : liftList params s xs = some (s1, os)) :
    SInv np s1 ∧ s1.ops = s.ops ∧ s1.vc = s.vc ∧ s1.results = s.results ∧ (∃ e, s1.caps = s.caps ++ e) ∧
    ∀ (env : Env Nm V) pv store rs caps, Corr env params pv store caps s.results rs → (∀ p ∈ s1.caps, p ∈ caps) →
      List.Forall₂ (Den env pv store rs) xs os := by
  induction xs generalizing s os with
  | nil =>
    simp only [liftList, Option.some.injEq, Prod.mk.injEq] at h
    obtain ⟨rfl, rfl⟩ := h
    exact ⟨hi, rfl, rfl, rfl, ⟨[], by simp⟩, fun _ _ _ _ _ _ _ => .nil⟩
  | cons x xs ih =>
    simp only [liftList] at h
    cases h1 : liftSrc (V := V) params s x with
    | none => simp [h1] at h
    | some r =>
      obtain ⟨t, o⟩ := r
      simp only [h1] at h
      cases h2 : liftList (V := V) params t xs with
      | none => simp [h2] at h
      | some r =>
        obtain ⟨t', os'⟩ := r
        simp only [h2, Option.some.injEq, Prod.mk.injEq] at h
        obtain ⟨rfl, rfl⟩ := h
        obtain ⟨a1, a2, a3, a4, ⟨e, a5⟩, a6⟩ := liftSrc_spec hi h1
        obtain ⟨b1, b2, b3, b4, ⟨e', b5⟩, b6⟩ := ih a1 h2
        refine ⟨b1, b2.trans a2, b3.trans a3, b4.trans a4, ⟨e ++ e', by rw [b5, a5, List.append_assoc]⟩, ?_⟩
        intro env pv store rs caps hc hsub
        refine .cons (a6 env pv store rs caps hc ?_) (b6 env pv store rs caps (by rw [a4]; exact hc) hsub)
        intro p hp; exact hsub p (by rw [b5]; exact List.mem_append_left _ hp)

theorem den_resolve {env : Env Nm V} {pv : List V} {store : Nat → V} {rs : List (List V)} {xs : List (Src C)}
    {os : List (Obj V C)} (h : List.Forall₂ (Den env pv store rs) xs os) :
    ∃ vs, resolve env (objNames os) = some vs ∧ (xs.filter srcIsObj).mapM (valOf pv store rs) = some vs := by
  induction h with
  | nil => exact ⟨[], by simp [objNames, resolve]⟩
  | cons hd _ ih =>
    obtain ⟨vs, h1, h2⟩ := ih
    rcases hd with ⟨c, rfl, rfl⟩ | ⟨ho, n, v, rfl, he, hv⟩
    · exact ⟨vs, by simpa [objNames] using h1, by simpa [srcIsObj] using h2⟩
    · refine ⟨v :: vs, ?_, ?_⟩
      · simp only [objNames, List.filterMap_cons] at h1 ⊢
        simp [resolve, he, h1]
      · simp [List.filter_cons, ho, hv, h2]

theorem bindOuts_split (sem : Sem V) (vc nout : Nat) (r : V) :
    bindOuts sem ((List.range' vc nout).map Nm.val) r =
      (splitResult sem nout r).map fun vs => ((List.range' vc nout).map Nm.val).zip vs := by
  match nout with
  | 0 => simp [bindOuts, splitResult]
  | 1 => simp [bindOuts, splitResult]
  | n + 2 =>
    simp only [List.range'_succ, List.map_cons, bindOuts, splitResult]
    cases sem.asSeq r with
    | none => simp
    | some rs =>
      simp only [List.length_cons, List.length_map, List.length_range']
      split <;> simp

theorem splitResult_len {sem : Sem V} {nout : Nat} {r : V} {vs : List V} (h : splitResult sem nout r = some vs) :
    vs.length = nout := by
  match nout with
  | 0 => simp only [splitResult, Option.some.injEq] at h; subst h; rfl
  | 1 => simp only [splitResult, Option.some.injEq] at h; subst h; rfl
  | n + 2 =>
    simp only [splitResult] at h
    cases hs : sem.asSeq r with
    | none => simp [hs] at h
    | some rs =>
      simp only [hs] at h
      split at h
      · simp only [Option.some.injEq] at h; subst h; assumption
      · simp at h

theorem forall2_zip (env : Env Nm V) {ns : List Nm} {vs : List V} (hl : ns.length = vs.length) (hn : ns.Nodup) :
    List.Forall₂ (fun n v => env.setAll (ns.zip vs) n = some v) ns vs := by
  have key : ∀ (l : List Nm) (m : List V), l.length = m.length → (∀ p ∈ l.zip m, p ∈ ns.zip vs) →
      List.Forall₂ (fun n v => env.setAll (ns.zip vs) n = some v) l m := by
    intro l
    induction l with
    | nil => intro m hm _; cases m with
      | nil => exact .nil
      | cons _ _ => simp at hm
    | cons a l ih =>
      intro m hm hs
      cases m with
      | nil => simp at hm
      | cons b m =>
        simp only [List.length_cons, Nat.add_right_cancel_iff] at hm
        refine .cons ?_ (ih m hm (fun p hp => hs p (by simp [hp])))
        apply setAll_mem_eq
        · rw [List.map_fst_zip (by omega)]; exact hn
        · exact hs (a, b) (by simp)
  exact key ns vs hl (fun p hp => hp)

theorem forall2_imp {α β : Type} {R S : α → β → Prop} {l : List α} {m : List β} (h : List.Forall₂ R l m)
    (hi : ∀ a ∈ l, ∀ b, R a b → S a b) : List.Forall₂ S l m := by
  induction h with
  | nil => exact .nil
  | cons hr _ ih => exact .cons (hi _ (by simp) _ hr) (ih (fun a ha => hi a (by simp [ha])))

theorem forall2_snoc {α β : Type} {R : α → β → Prop} {l : List α} {m : List β} {a : α} {b : β} (h : List.Forall₂ R l m)
    (hr : R a b) : List.Forall₂ R (l ++ [a]) (m ++ [b]) := by
  induction h with
  | nil => exact .cons hr .nil
  | cons h1 _ ih => exact .cons h1 ih

theorem traceBody_spec {np : Nat} {params : List Nm} (hp : ∀ n ∈ params, ∃ k, n = .arg k) (body : List (Instr C))
    (s s1 : TSt) (hi : SInv np s) (h : traceBody V params s body = some s1) :
    SInv np s1 ∧ (∃ e, s1.caps = s.caps ++ e) ∧ ∃ new, s1.ops = s.ops ++ new ∧
    ∀ (sem : Sem V) (env : Env Nm V) pv store rs caps i, Corr env params pv store caps s.results rs →
      (∀ p ∈ caps, ∃ k, p.2 = .arg k) → (∀ p ∈ s1.caps, p ∈ caps) →
      match specLoop sem i new env with
      | none => directBody sem pv store i body rs = none
      | some env' => ∃ rs', directBody sem pv store i body rs = some rs' ∧
          Corr env' params pv store caps s1.results rs' := by
  induction body generalizing s with
  | nil =>
    simp only [traceBody, Option.some.injEq] at h
    subst h
    refine ⟨hi, ⟨[], by simp⟩, [], by simp, ?_⟩
    intro sem env pv store rs caps i hc _ _
    simp only [specLoop, directBody]
    exact ⟨rs, rfl, hc⟩
  | cons ins body ih =>
    simp only [traceBody, bindPrim] at h
    cases h1 : liftList (V := V) params s ins.args with
    | none => simp [h1] at h
    | some r =>
      obtain ⟨t, os⟩ := r
      simp only [h1] at h
      obtain ⟨a1, a2, a3, a4, ⟨e, a5⟩, a6⟩ := liftList_spec hi h1
      have hi' : SInv np { t with
          ops := t.ops ++ [⟨objNames os, (List.range' t.vc ins.nout).map Nm.val⟩], vc := t.vc + ins.nout,
          results := t.results ++ [(List.range' t.vc ins.nout).map Nm.val] } := by
        refine ⟨a1.ctr, a1.inputs, a1.caps, ?_⟩
        intro nms hn n hm
        rcases List.mem_append.mp hn with hn | hn
        · obtain ⟨k, h1, h2⟩ := a1.res nms hn n hm
          exact ⟨k, h1, by simp only; omega⟩
        · simp only [List.mem_singleton] at hn
          subst hn
          simp only [List.mem_map, List.mem_range'_1] at hm
          obtain ⟨k, h1, rfl⟩ := hm
          exact ⟨k, rfl, h1.2⟩
      obtain ⟨b1, ⟨e', b2⟩, new, b3, b4⟩ := ih _ hi' h
      refine ⟨b1, ⟨e ++ e', by rw [b2]; simp [a5]⟩, ⟨objNames os, (List.range' t.vc ins.nout).map Nm.val⟩ :: new, ?_, ?_⟩
      · rw [b3]; simp [a2]
      · intro sem env pv store rs caps i hc hcap hsub
        have hd := a6 env pv store rs caps hc (fun p hp => hsub p (by rw [b2]; exact List.mem_append_left _ hp))
        obtain ⟨vs, r1, r2⟩ := den_resolve hd
        simp only [specLoop, r1, directBody, r2, applyPrim]
        cases himp : sem.impl i with
        | false => simp
        | true =>
          simp only [if_true]
          cases hrun : sem.run i vs with
          | none => simp
          | some r =>
            simp only [bindOuts_split, Option.bind_some]
            cases hsp : splitResult sem ins.nout r with
            | none => simp
            | some outs =>
              simp only [Option.map_some]
              have hlen := splitResult_len hsp
              have hnot : ∀ n : Nm, (∀ k, n = .val k → k < t.vc) →
                  env.setAll (((List.range' t.vc ins.nout).map Nm.val).zip outs) n = env n := by
                intro n hn
                apply setAll_not_mem
                rw [List.map_fst_zip (by simp [hlen])]
                intro hm
                simp only [List.mem_map, List.mem_range'_1] at hm
                obtain ⟨k, h1, rfl⟩ := hm
                have := hn k rfl; omega
              have hc' : Corr (env.setAll (((List.range' t.vc ins.nout).map Nm.val).zip outs)) params pv store caps
                  (t.results ++ [(List.range' t.vc ins.nout).map Nm.val]) (rs ++ [outs]) := by
                refine ⟨?_, ?_, ?_⟩
                · refine forall2_imp hc.par ?_
                  intro n hn v hv
                  obtain ⟨k, rfl⟩ := hp n hn
                  rw [hnot _ (by simp)]; exact hv
                · intro p hpm
                  obtain ⟨k, hk⟩ := hcap p hpm
                  rw [hnot _ (by simp [hk])]
                  exact hc.cap p hpm
                · apply forall2_snoc
                  · rw [a4]
                    refine forall2_imp hc.res ?_
                    intro nms hn vs' hv
                    refine forall2_imp hv ?_
                    intro n hm v hv
                    obtain ⟨k, rfl, hk⟩ := hi.res nms hn n hm
                    rw [hnot _ (by intro k' hk'; simp only [Nm.val.injEq] at hk'; omega)]
                    exact hv
                  · apply forall2_zip
                    · simp [hlen]
                    · apply List.Nodup.map
                      · intro a b hab; simpa using hab
                      · exact List.nodup_range'
              exact b4 sem _ pv store (rs ++ [outs]) caps (i + 1) hc' hcap hsub

theorem liftParams_spec (n : Nat) (s : TSt) (hi : s.inputs = (List.range s.argCtr).map Nm.arg) :
    (liftParams n s).1 = { s with argCtr := s.argCtr + n, inputs := (List.range (s.argCtr + n)).map Nm.arg } ∧
    (liftParams n s).2 = (List.range' s.argCtr n).map Nm.arg := by
  induction n generalizing s with
  | zero => simp [liftParams, ← hi]
  | succ n ih =>
    have := ih (newArg s).1 (by simp [newArg, hi, List.range_succ])
    simp only [liftParams]
    rw [this.1, this.2]
    constructor
    · simp only [newArg]; rw [show s.argCtr + 1 + n = s.argCtr + (n + 1) by omega]
    · simp [newArg, List.range'_succ]

mutual
theorem evalTree_leaves (f : Src C → Option V) (t : Tree (Src C)) :
    ∀ vs, (t.leaves.filter srcIsObj).mapM f = some vs →
      ∃ u, evalTree f t = some u ∧ u.def' = t.def' ∧
        List.Forall₂ (fun x o => (∃ c, x = .const c ∧ o = Obj.const c) ∨ (srcIsObj x = true ∧ ∃ v, f x = some v ∧ o = .val v))
          t.leaves u.leaves := by
  match t with
  | .leaf (.const c) =>
    intro vs _
    exact ⟨_, rfl, rfl, .cons (Or.inl ⟨c, rfl, rfl⟩) .nil⟩
  | .leaf (.param k) =>
    intro vs h
    simp only [Tree.leaves, List.filter_cons, srcIsObj, if_true, List.filter_nil, List.mapM_cons, List.mapM_nil] at h
    cases hf : f (.param k) with
    | none => simp [hf] at h
    | some v => exact ⟨.leaf (.val v), by simp [evalTree, hf], rfl, .cons (Or.inr ⟨rfl, v, hf, rfl⟩) .nil⟩
  | .leaf (.cap k) =>
    intro vs h
    simp only [Tree.leaves, List.filter_cons, srcIsObj, if_true, List.filter_nil, List.mapM_cons, List.mapM_nil] at h
    cases hf : f (.cap k) with
    | none => simp [hf] at h
    | some v => exact ⟨.leaf (.val v), by simp [evalTree, hf], rfl, .cons (Or.inr ⟨rfl, v, hf, rfl⟩) .nil⟩
  | .leaf (.res i j) =>
    intro vs h
    simp only [Tree.leaves, List.filter_cons, srcIsObj, if_true, List.filter_nil, List.mapM_cons, List.mapM_nil] at h
    cases hf : f (.res i j) with
    | none => simp [hf] at h
    | some v => exact ⟨.leaf (.val v), by simp [evalTree, hf], rfl, .cons (Or.inr ⟨rfl, v, hf, rfl⟩) .nil⟩
  | .node k ts =>
    intro vs h
    obtain ⟨us, h1, h2, h3⟩ := evalTrees_leaves f ts vs (by simpa [Tree.leaves] using h)
    exact ⟨.node k us, by simp [evalTree, h1], by simp [Tree.def', h2], by simpa [Tree.leaves] using h3⟩
theorem evalTrees_leaves (f : Src C → Option V) (ts : List (Tree (Src C))) :
    ∀ vs, ((leavesL ts).filter srcIsObj).mapM f = some vs →
      ∃ us, evalTrees f ts = some us ∧ defL us = defL ts ∧
        List.Forall₂ (fun x o => (∃ c, x = .const c ∧ o = Obj.const c) ∨ (srcIsObj x = true ∧ ∃ v, f x = some v ∧ o = .val v))
          (leavesL ts) (leavesL us) := by
  match ts with
  | [] => intro vs _; exact ⟨[], rfl, rfl, .nil⟩
  | t :: ts =>
    intro vs h
    simp only [leavesL, List.filter_append, List.mapM_append] at h
    cases h1 : (t.leaves.filter srcIsObj).mapM f with
    | none => simp [h1] at h
    | some a =>
      cases h2 : ((leavesL ts).filter srcIsObj).mapM f with
      | none => simp [h1, h2] at h
      | some b =>
        obtain ⟨u, p1, p2, p3⟩ := evalTree_leaves f t a h1
        obtain ⟨us, q1, q2, q3⟩ := evalTrees_leaves f ts b h2
        exact ⟨u :: us, by simp [evalTrees, p1, q1], by simp [defL, p2, q2], by
          simp only [leavesL]; exact List.rel_append p3 q3⟩
end

mutual
theorem map_leaves {α β : Type} (f : α → β) (t : Tree α) : (t.map f).leaves = t.leaves.map f ∧ (t.map f).def' = t.def' := by
  match t with
  | .leaf a => simp [Tree.map, Tree.leaves, Tree.def']
  | .node k ts =>
    obtain ⟨h1, h2⟩ := mapL_leaves f ts
    simp [Tree.map, Tree.leaves, Tree.def', h1, h2]
theorem mapL_leaves {α β : Type} (f : α → β) (ts : List (Tree α)) :
    leavesL (mapL f ts) = (leavesL ts).map f ∧ defL (mapL f ts) = defL ts := by
  match ts with
  | [] => simp [mapL, leavesL, defL]
  | t :: ts =>
    obtain ⟨h1, h2⟩ := map_leaves f t
    obtain ⟨h3, h4⟩ := mapL_leaves f ts
    simp [mapL, leavesL, defL, h1, h2, h3, h4]
end

theorem listSplit_idx_congr {α : Type} (p : α → Bool) (xs ys : List α) (h : xs.map p = ys.map p) (i : Nat) :
    (listSplit p i xs).2.2 = (listSplit p i ys).2.2 := by
  induction xs generalizing ys i with
  | nil => cases ys with
    | nil => rfl
    | cons _ _ => simp at h
  | cons x xs ih =>
    cases ys with
    | nil => simp at h
    | cons y ys =>
      simp only [List.map_cons, List.cons.injEq] at h
      simp only [listSplit, h.1]
      split <;> simp [ih ys h.2 (i + 1)]

theorem shape_eq {t t' : Tree (Obj V C)} (h : shape t' = shape t) :
    t'.leaves.map isObj = t.leaves.map isObj ∧ t'.def' = t.def' := by
  constructor
  · have h1 : (shape t').leaves = (shape t).leaves := by rw [h]
    simp only [shape, (map_leaves _ _).1] at h1
    have h2 := congrArg (List.map Option.isNone) h1
    simp only [List.map_map] at h2
    have e : (Option.isNone ∘ constOf : Obj V C → Bool) = isObj := by funext o; cases o <;> rfl
    rwa [e] at h2
  · have h1 : (shape t').def' = (shape t).def' := by rw [h]
    simpa only [shape, (map_leaves _ _).2] using h1

theorem mapM_pos {α : Type} (g : α → Option V) (l : List α) (idx : List Nat) (vars : List α)
    (h : idx.map (fun i => l[i]?) = vars.map some) : idx.mapM (fun i => (l[i]?).bind g) = vars.mapM g := by
  induction idx generalizing vars with
  | nil => cases vars with
    | nil => rfl
    | cons _ _ => simp at h
  | cons i idx ih =>
    cases vars with
    | nil => simp at h
    | cons v vars =>
      simp only [List.map_cons, List.cons.injEq] at h
      simp only [List.mapM_cons, h.1, Option.bind_some, ih vars h.2]

theorem mapM_toVal (l : List (Obj V C)) (hv : ∀ o ∈ l, isObj o = true → ∃ v, o = .val v) :
    (l.filter isObj).mapM toVal = some (l.filterMap toVal) := by
  induction l with
  | nil => simp
  | cons o l ih =>
    have ih' := ih (fun o ho => hv o (by simp [ho]))
    cases o with
    | nm n => obtain ⟨v, h⟩ := hv (.nm n) (by simp) rfl; simp at h
    | val v => simp [List.filter_cons, isObj, toVal, ih']
    | const c => rw [List.filterMap_cons_none rfl]; simpa [isObj] using ih'

theorem varDemorph_spec {α : Type} (t : Tree α) (isVar : α → Bool) (vs : List α)
    (hl : vs.length = (varMorph t isVar).1.length) :
    ∃ u, varDemorph vs (varMorph t isVar).2 = some u ∧ u.def' = t.def' ∧ u.leaves = substList isVar t.leaves vs := by
  have hlen := listSplit_len isVar 0 t.leaves
  simp only [varMorph] at hl
  simp only [varDemorph, varMorph, listReconstruct, hl, hlen]
  rw [recon_split isVar 0 t.leaves vs hl]
  obtain ⟨u, h1, h2, h3⟩ := unflatten_spec t (substList isVar t.leaves vs) [] (substList_length _ _ _)
  rw [List.append_nil] at h1
  refine ⟨u, ?_, h3, h2⟩
  simp [unflatten, h1]

theorem liftList_length {params : List Nm} {xs : List (Src C)} {s s1 : TSt} {os : List (Obj V C)}
    (h : liftList params s xs = some (s1, os)) : os.length = xs.length := by
  induction xs generalizing s os with
  | nil => simp only [liftList, Option.some.injEq, Prod.mk.injEq] at h; simp [← h.2]
  | cons x xs ih =>
    simp only [liftList] at h
    cases h1 : liftSrc (V := V) params s x with
    | none => simp [h1] at h
    | some r =>
      simp only [h1] at h
      cases h2 : liftList (V := V) params r.1 xs with
      | none => simp [h2] at h
      | some r' =>
        simp only [h2, Option.some.injEq, Prod.mk.injEq] at h
        rw [← h.2, List.length_cons, ih (by rw [h2, ← h.1]), List.length_cons]

theorem objNames_filter (os : List (Obj V C)) : objNames (os.filter isObj) = objNames os := by
  induction os with
  | nil => rfl
  | cons o os ih =>
    cases o with
    | nm n => rw [List.filter_cons_of_pos (by rfl)]; simpa [objNames] using ih
    | val v => rw [List.filter_cons_of_pos (by rfl)]; simpa [objNames] using ih
    | const c => rw [List.filter_cons_of_neg (by simp [isObj])]; simpa [objNames] using ih

theorem objNames_length {env : Env Nm V} {pv : List V} {store : Nat → V} {rs : List (List V)} {xs : List (Src C)}
    {os : List (Obj V C)} (h : List.Forall₂ (Den env pv store rs) xs os) :
    (objNames os).length = (os.filter isObj).length := by
  induction h with
  | nil => rfl
  | cons hd _ ih =>
    rcases hd with ⟨c, rfl, rfl⟩ | ⟨ho, n, v, rfl, he, hv⟩
    · rw [List.filter_cons_of_neg (by simp [isObj])]; simpa [objNames] using ih
    · rw [List.filter_cons_of_pos (by rfl)]; simpa [objNames] using ih

theorem resolve_length {env : Env Nm V} {ns : List Nm} {vs : List V} (h : resolve env ns = some vs) :
    vs.length = ns.length := by
  induction ns generalizing vs with
  | nil => simp only [resolve, Option.some.injEq] at h; simp [← h]
  | cons n ns ih =>
    simp only [resolve] at h
    cases h1 : env n with
    | none => simp [h1] at h
    | some v =>
      cases h2 : resolve env ns with
      | none => simp [h1, h2] at h
      | some xs => simp only [h1, h2, Option.some.injEq] at h; simp [← h, ih h2]

theorem result_leaves {env : Env Nm V} {pv : List V} {store : Nat → V} {rs : List (List V)} {xs : List (Src C)}
    {os us : List (Obj V C)} {vs : List V} (h : List.Forall₂ (Den env pv store rs) xs os)
    (hu : List.Forall₂ (fun x o => (∃ c, x = Src.const c ∧ o = Obj.const c) ∨
      (srcIsObj x = true ∧ ∃ v, valOf pv store rs x = some v ∧ o = .val v)) xs us)
    (hr : resolve env (objNames os) = some vs) : us = substList isObj os (vs.map .val) := by
  induction h generalizing us vs with
  | nil => cases hu; rfl
  | cons hd _ ih =>
    cases hu with
    | cons hd' htl =>
      rcases hd with ⟨c, rfl, rfl⟩ | ⟨ho, n, v, rfl, he, hv⟩
      · rcases hd' with ⟨c', h1, rfl⟩ | ⟨h1, _⟩
        · simp only [Src.const.injEq] at h1
          subst h1
          simp only [substList, isObj, Bool.false_eq_true, if_false]
          rw [ih htl (by simpa [objNames] using hr)]
        · simp [srcIsObj] at h1
      · rcases hd' with ⟨c', rfl, rfl⟩ | ⟨h1, v', h2, rfl⟩
        · simp [srcIsObj] at ho
        · rw [hv] at h2
          simp only [Option.some.injEq] at h2
          subst h2
          simp only [objNames, List.filterMap_cons, resolve, he] at hr
          cases h3 : resolve env (objNames _) with
          | none => (simp only [objNames] at h3); rw [h3] at hr; simp at hr
          | some ws =>
            have := ih htl h3
            simp only [objNames] at h3
            simp only [h3, Option.some.injEq] at hr
            subst hr
            simp [substList, isObj, this]

theorem env0_arg (m : Nat) (vals : List V) (hl : vals.length = m) (k : Nat) (v : V) (hk : vals[k]? = some v) :
    Env.setAll (fun _ => none) (((List.range m).map Nm.arg).zip vals) (.arg k) = some v := by
  apply setAll_mem_eq
  · rw [List.map_fst_zip (by simp [hl])]
    apply List.Nodup.map
    · intro a b hab; simpa using hab
    · exact List.nodup_range
  · obtain ⟨hk1, hk2⟩ := List.getElem?_eq_some_iff.mp hk
    rw [List.mem_iff_getElem?]
    refine ⟨k, ?_⟩
    rw [List.getElem?_zip_eq_some]
    refine ⟨?_, hk⟩
    rw [List.getElem?_map, List.getElem?_range (by omega : k < m)]; rfl

mutual
theorem unflatten_poly {α β : Type} (t : Tree α) (l r : List β) (h : l.length = t.leaves.length) :
    ∃ u, unflattenAux t.def' (l ++ r) = some (u, r) ∧ u.leaves = l ∧ u.def' = t.def' := by
  match t with
  | .leaf a =>
    simp only [Tree.leaves, List.length_singleton] at h
    match l, h with
    | [x], _ => exact ⟨.leaf x, by simp [Tree.def', unflattenAux], by simp [Tree.leaves], by simp [Tree.def']⟩
  | .node k ts =>
    simp only [Tree.leaves] at h
    obtain ⟨us, h1, h2, h3⟩ := unflattenL_poly ts l r h
    exact ⟨.node k us, by simp [Tree.def', unflattenAux, h1], by simp [Tree.leaves, h2], by simp [Tree.def', h3]⟩
theorem unflattenL_poly {α β : Type} (ts : List (Tree α)) (l r : List β) (h : l.length = (leavesL ts).length) :
    ∃ us, unflattenL (defL ts) (l ++ r) = some (us, r) ∧ leavesL us = l ∧ defL us = defL ts := by
  match ts with
  | [] =>
    simp only [leavesL, List.length_nil] at h
    have : l = [] := List.length_eq_zero_iff.mp h
    subst this
    exact ⟨[], by simp [defL, unflattenL], by simp [leavesL], rfl⟩
  | t :: ts =>
    simp only [leavesL, List.length_append] at h
    have hsplit : l = l.take t.leaves.length ++ l.drop t.leaves.length := (List.take_append_drop _ _).symm
    have hl1 : (l.take t.leaves.length).length = t.leaves.length := by simp; omega
    have hl2 : (l.drop t.leaves.length).length = (leavesL ts).length := by simp; omega
    obtain ⟨u, h1, h2, h3⟩ := unflatten_poly t (l.take t.leaves.length) (l.drop t.leaves.length ++ r) hl1
    obtain ⟨us, g1, g2, g3⟩ := unflattenL_poly ts (l.drop t.leaves.length) r hl2
    refine ⟨u :: us, ?_, ?_, ?_⟩
    · simp only [defL, unflattenL]
      rw [hsplit, List.append_assoc, h1]
      simp only [g1]
    · simp only [leavesL, h2, g2, List.take_append_drop]
    · simp only [defL, h3, g3]
end

theorem unflatten_def {α β : Type} (t : Tree α) (l : List β) (hl : l.length = t.leaves.length) :
    ∃ u : Tree β, unflatten t.def' l = some u ∧ u.leaves = l ∧ u.def' = t.def' := by
  obtain ⟨u, h1, h2, h3⟩ := unflatten_poly t l [] hl
  rw [List.append_nil] at h1
  exact ⟨u, by simp [unflatten, h1], h2, h3⟩

end Verif.Trace
