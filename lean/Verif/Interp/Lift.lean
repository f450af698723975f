import Verif.Interp.Props
/-!
# C14 — lazy evaluation of traced values: `Interpreter.lift` and its execution cache

`Interpreter.lift(TraceObject)` (runtime/interpreter.py:789-862).  Graph values are compared by object identity
(edsl/graph.py:86-90), so one name type `N` is used for the values of all tracers; the cache is one `dict` per
interpreter.  The graphs may grow between two requests (user code keeps tracing).  The specification is the relation `Val`:
the value of a graph value is what its defining op yields on the values of the operands — it mentions neither the cache nor
whole-graph evaluation.
-/
namespace Verif.Interp.Lift
open Verif.Interp

/-- An object captured by a tracer (`tracer._captured_vars`, edsl/tracer.py): an interpreter object or a constant with its
runtime value, or a traced object of (another) tracer, given by its tracer and graph value. -/
inductive Src (N V : Type) where
  | const (x : V)
  | traced (t : Nat) (v : N)

/-- A tracer: captured objects in insertion order (the graph inputs have the same order) and the ops of its graph
(edsl/tracer.py `_captured_vars`, `graph`).  Lazy evaluation happens on tracers without explicit parameters. -/
structure Tr (N V : Type) where
  inputs : List N
  caps : List (Src N V)
  ops : List (Op N)

/-- interpreter state: `_execution_cache` (runtime/interpreter.py:460) and, as history, one entry per `evaluate_graph`
call made by `lift`: the tracer and the number of ops run. -/
structure LS (N V : Type) where
  cache : Env N V
  log : List (Nat × Nat)

section
variable {N V : Type} [DecidableEq N]

/-- `defining_op.outputs`, or the value itself when it has no defining op (runtime/interpreter.py:806-815) -/
def targets (t : Tr N V) (v : N) : List N :=
  match t.ops.find? (fun o => decide (v ∈ o.outs)) with
  | some o => o.outs
  | none => [v]

/-- the loop over captured objects (runtime/interpreter.py:823-833); `l` is the recursive `self.lift` -/
def liftCaps (l : Nat → N → LS N V → LS N V × Option V) : List (Src N V) → LS N V → LS N V × Option (List V)
  | [], s => (s, some [])
  | .const x :: cs, s =>
    match liftCaps l cs s with
    | (s', some xs) => (s', some (x :: xs))
    | (s', none) => (s', none)
  | .traced t v :: cs, s =>
    match l t v s with
    | (s', none) => (s', none)
    | (s', some x) => match liftCaps l cs s' with
      | (s'', some xs) => (s'', some (x :: xs))
      | (s'', none) => (s'', none)

/-- `Interpreter.lift` of a traced object (runtime/interpreter.py:789-858) in a world `w` of tracers; `none` = exception
(including the recursion limit, the first argument).  `graph.outputs` is set to the targets for the evaluation and restored
afterwards (818-819, 846-847), so it does not appear in the state. -/
def lift (sem : Nat → Sem V) (w : List (Tr N V)) : Nat → Nat → N → LS N V → LS N V × Option V
  | 0, _, _, s => (s, none)
  | fuel + 1, t, v, s =>
    match s.cache v with
    | some x => (s, some x)
    | none => match w[t]? with
      | none => (s, none)
      | some tr => match liftCaps (lift sem w fuel) tr.caps s with
        | (s', none) => (s', none)
        | (s', some args) =>
          let s'' : LS N V := { s' with log := s'.log ++ [(t, tr.ops.length)] }
          match evalSync (sem t) ⟨tr.inputs, tr.ops, targets tr v⟩ args with
          | none => (s'', none)
          | some rs =>
            let c := s''.cache.setAll ((targets tr v).zip rs)
            ({ s'' with cache := c }, c v)

/-! ## Specification -/

mutual
/-- `Val sem w v x`: `x` is the value of graph value `v` — of a captured object if `v` is an input of a tracer's graph, of
the defining op applied to the values of its operands otherwise. -/
inductive Val (sem : Nat → Sem V) (w : List (Tr N V)) : N → V → Prop
  | const {t : Nat} {tr : Tr N V} {j : Nat} {v : N} {x : V} : w[t]? = some tr → tr.inputs[j]? = some v → tr.caps[j]? = some (.const x) → Val sem w v x
  | capt {t : Nat} {tr : Tr N V} {j : Nat} {v : N} {t' : Nat} {v' : N} {x : V} : w[t]? = some tr → tr.inputs[j]? = some v → tr.caps[j]? = some (.traced t' v') →
      Val sem w v' x → Val sem w v x
  | op {t : Nat} {tr : Tr N V} {i : Nat} {o : Op N} {args : List V} {r : V} {bs : List (N × V)} {v : N} {x : V} : w[t]? = some tr → tr.ops[i]? = some o → Vals sem w o.ins args →
      (sem t).run i args = some r → bindOuts (sem t) o.outs r = some bs → (v, x) ∈ bs → Val sem w v x
/-- pointwise `Val` -/
inductive Vals (sem : Nat → Sem V) (w : List (Tr N V)) : List N → List V → Prop
  | nil : Vals sem w [] []
  | cons {v x vs xs} : Val sem w v x → Vals sem w vs xs → Vals sem w (v :: vs) (x :: xs)
end

/-- names defined in a tracer's graph -/
def Tr.defs (t : Tr N V) : List N := t.inputs ++ t.ops.flatMap Op.outs

/-- Values are created once (they are distinct objects): no name is defined twice, within or across tracers. -/
def Distinct (w : List (Tr N V)) : Prop := (w.flatMap Tr.defs).Nodup

/-- `w'` is a later state of the world `w`: tracers may be added, and each graph only grows at the end
(`Graph.add_op`, `add_input`; see C07). -/
def Grows (w w' : List (Tr N V)) : Prop :=
  ∀ (t : Nat) (tr : Tr N V), w[t]? = some tr → ∃ tr' : Tr N V, w'[t]? = some tr' ∧ tr.inputs <+: tr'.inputs ∧ tr.caps <+: tr'.caps ∧ tr.ops <+: tr'.ops

/-! ## Soundness of one lift -/

theorem setAll_some (e : Env N V) (bs : List (N × V)) (v : N) (x : V) (h : (e.setAll bs) v = some x) :
    (v, x) ∈ bs ∨ e v = some x := by
  induction bs generalizing e with
  | nil => exact .inr h
  | cons b bs ih =>
    obtain ⟨b1, b2⟩ := b
    rcases ih (e.set b1 b2) h with h1 | h1
    · exact .inl (by simp [h1])
    · simp only [Env.set] at h1
      split at h1
      · rename_i hv; simp only [Option.some.injEq] at h1; subst hv h1; exact .inl (by simp)
      · exact .inr h1

theorem resolve_vals (sem : Nat → Sem V) (w : List (Tr N V)) (e : Env N V) (he : ∀ v x, e v = some x → Val sem w v x)
    (vs : List N) (xs : List V) (h : resolve e vs = some xs) : Vals sem w vs xs := by
  induction vs generalizing xs with
  | nil => simp only [resolve, Option.some.injEq] at h; subst h; exact .nil
  | cons v vs ih =>
    simp only [resolve] at h
    cases h1 : e v with
    | none => simp [h1] at h
    | some x =>
      cases h2 : resolve e vs with
      | none => simp [h1, h2] at h
      | some ys =>
        simp only [h1, h2, Option.some.injEq] at h
        subst h
        exact .cons (he v x h1) (ih ys h2)

theorem vals_zip {sem : Nat → Sem V} {w : List (Tr N V)} : ∀ {vs : List N} {xs : List V}, Vals sem w vs xs →
    ∀ v x, (v, x) ∈ vs.zip xs → Val sem w v x
  | _, _, .nil, v, x, h => by simp at h
  | _, _, .cons h1 h2, v, x, h => by
    simp only [List.zip_cons_cons, List.mem_cons, Prod.mk.injEq] at h
    rcases h with ⟨rfl, rfl⟩ | h
    · exact h1
    · exact vals_zip h2 v x h

theorem specLoop_val (sem : Nat → Sem V) (w : List (Tr N V)) (t : Nat) (tr : Tr N V) (ht : w[t]? = some tr)
    (ops : List (Op N)) (i : Nat) (hops : ∀ k o, ops[k]? = some o → tr.ops[i + k]? = some o)
    (e e' : Env N V) (he : ∀ v x, e v = some x → Val sem w v x) (h : specLoop (sem t) i ops e = some e') :
    ∀ v x, e' v = some x → Val sem w v x := by
  induction ops generalizing i e with
  | nil => simp only [specLoop, Option.some.injEq] at h; subst h; exact he
  | cons o ops ih =>
    simp only [specLoop] at h
    split at h
    · simp at h
    · rename_i args ha
      split at h
      · split at h
        · simp at h
        · rename_i r hr
          split at h
          · simp at h
          · rename_i bs hb
            refine ih (i + 1) (fun k p hp => by have := hops (k + 1) p (by simpa using hp); rwa [show i + 1 + k = i + (k + 1) by omega]) _ ?_ h
            intro v x hv
            rcases setAll_some _ _ _ _ hv with hv | hv
            · exact .op ht (by simpa using hops 0 o rfl) (resolve_vals sem w e he _ _ ha) hr hb hv
            · exact he v x hv
      · simp at h

/-- arguments of an evaluation: pointwise values of the captured objects -/
def CapsVal (sem : Nat → Sem V) (w : List (Tr N V)) (cs : List (Src N V)) (xs : List V) : Prop :=
  cs.length = xs.length ∧ ∀ (j : Nat) (x : V), xs[j]? = some x → cs[j]? = some (.const x) ∨ ∃ (t : Nat) (v : N), cs[j]? = some (.traced t v) ∧ Val sem w v x

theorem eval_val (sem : Nat → Sem V) (w : List (Tr N V)) (t : Nat) (tr : Tr N V) (ht : w[t]? = some tr)
    (args : List V) (hargs : CapsVal sem w tr.caps args) (outs : List N) (rs : List V)
    (h : evalSync (sem t) ⟨tr.inputs, tr.ops, outs⟩ args = some rs) : Vals sem w outs rs := by
  rw [sync_eval_correct] at h
  simp only [evalSpec, initEnv] at h
  split at h
  · simp at h
  · rename_i env henv
    split at henv
    · rename_i hlen
      simp only [Option.some.injEq] at henv
      split at h
      · simp at h
      · rename_i env' hloop
        refine resolve_vals sem w env' ?_ outs rs h
        refine specLoop_val sem w t tr ht tr.ops 0 (fun k o hk => by simpa using hk) env env' ?_ hloop
        intro v x hv
        subst henv
        rcases setAll_some _ _ _ _ hv with hv | hv
        · obtain ⟨j, hj⟩ := List.mem_iff_getElem?.mp hv
          rw [List.getElem?_zip_eq_some] at hj
          rcases hargs.2 j x hj.2 with hc | ⟨t', v', hc, hv'⟩
          · exact .const ht hj.1 hc
          · exact .capt ht hj.1 hc hv'
        · simp at hv
    · simp at henv

/-- all cached entries are values -/
def Good (sem : Nat → Sem V) (w : List (Tr N V)) (s : LS N V) : Prop := ∀ v x, s.cache v = some x → Val sem w v x

/-- what one (recursive) lift guarantees; `s.cache ⊆ s'.cache` pointwise -/
def Sound (sem : Nat → Sem V) (w : List (Tr N V)) (l : Nat → N → LS N V → LS N V × Option V) : Prop :=
  ∀ t v s s' r, Good sem w s → l t v s = (s', r) → Good sem w s' ∧ ∀ x, r = some x → Val sem w v x

theorem liftCaps_sound (sem : Nat → Sem V) (w : List (Tr N V)) (l) (hl : Sound sem w l) (cs : List (Src N V)) (s s' : LS N V)
    (r : Option (List V)) (hg : Good sem w s) (h : liftCaps l cs s = (s', r)) :
    Good sem w s' ∧ ∀ xs, r = some xs → CapsVal sem w cs xs := by
  induction cs generalizing s s' r with
  | nil =>
    simp only [liftCaps, Prod.mk.injEq] at h
    obtain ⟨rfl, rfl⟩ := h
    refine ⟨hg, ?_⟩
    rintro xs ⟨⟩
    exact ⟨rfl, by simp⟩
  | cons c cs ih =>
    cases c with
    | const x =>
      simp only [liftCaps] at h
      cases h1 : liftCaps l cs s with
      | mk s1 r1 =>
        obtain ⟨g1, g2⟩ := ih s s1 r1 hg h1
        cases r1 with
        | none => simp only [h1, Prod.mk.injEq] at h; obtain ⟨rfl, rfl⟩ := h; exact ⟨g1, by simp⟩
        | some xs =>
          simp only [h1, Prod.mk.injEq] at h
          obtain ⟨rfl, rfl⟩ := h
          refine ⟨g1, ?_⟩
          rintro ys ⟨⟩
          obtain ⟨p1, p2⟩ := g2 xs rfl
          refine ⟨by simp [p1], ?_⟩
          intro j y hy
          cases j with
          | zero => left; simpa using hy
          | succ j => simpa using p2 j y (by simpa using hy)
    | traced t v =>
      simp only [liftCaps] at h
      cases h0 : l t v s with
      | mk s0 r0 =>
        obtain ⟨g0, gv⟩ := hl t v s s0 r0 hg h0
        cases r0 with
        | none => simp only [h0, Prod.mk.injEq] at h; obtain ⟨rfl, rfl⟩ := h; exact ⟨g0, by simp⟩
        | some x =>
          simp only [h0] at h
          cases h1 : liftCaps l cs s0 with
          | mk s1 r1 =>
            obtain ⟨g1, g2⟩ := ih s0 s1 r1 g0 h1
            cases r1 with
            | none => simp only [h1, Prod.mk.injEq] at h; obtain ⟨rfl, rfl⟩ := h; exact ⟨g1, by simp⟩
            | some xs =>
              simp only [h1, Prod.mk.injEq] at h
              obtain ⟨rfl, rfl⟩ := h
              refine ⟨g1, ?_⟩
              rintro ys ⟨⟩
              obtain ⟨p1, p2⟩ := g2 xs rfl
              refine ⟨by simp [p1], ?_⟩
              intro j y hy
              cases j with
              | zero =>
                right
                simp only [List.getElem?_cons_zero, Option.some.injEq] at hy
                subst hy
                exact ⟨t, v, rfl, gv _ rfl⟩
              | succ j => simpa using p2 j y (by simpa using hy)

theorem lift_sound_aux (sem : Nat → Sem V) (w : List (Tr N V)) (fuel : Nat) : Sound sem w (lift sem w fuel) := by
  induction fuel with
  | zero =>
    intro t v s s' r hg h
    simp only [lift, Prod.mk.injEq] at h
    obtain ⟨rfl, rfl⟩ := h
    exact ⟨hg, by simp⟩
  | succ fuel ih =>
    intro t v s s' r hg h
    simp only [lift] at h
    cases hc : s.cache v with
    | some x =>
      simp only [hc, Prod.mk.injEq] at h
      obtain ⟨rfl, rfl⟩ := h
      exact ⟨hg, by rintro _ ⟨⟩; exact hg v _ hc⟩
    | none =>
      simp only [hc] at h
      cases ht : w[t]? with
      | none => simp only [ht, Prod.mk.injEq] at h; obtain ⟨rfl, rfl⟩ := h; exact ⟨hg, by simp⟩
      | some tr =>
        simp only [ht] at h
        cases h1 : liftCaps (lift sem w fuel) tr.caps s with
        | mk s1 r1 =>
          obtain ⟨g1, g2⟩ := liftCaps_sound sem w _ ih tr.caps s s1 r1 hg h1
          cases r1 with
          | none => simp only [h1, Prod.mk.injEq] at h; obtain ⟨rfl, rfl⟩ := h; exact ⟨g1, by simp⟩
          | some args =>
            simp only [h1] at h
            cases he : evalSync (sem t) ⟨tr.inputs, tr.ops, targets tr v⟩ args with
            | none => simp only [he, Prod.mk.injEq] at h; obtain ⟨rfl, rfl⟩ := h; exact ⟨g1, by simp⟩
            | some rs =>
              simp only [he, Prod.mk.injEq] at h
              obtain ⟨rfl, rfl⟩ := h
              have hv := vals_zip (eval_val sem w t tr ht args (g2 args rfl) _ rs he)
              have : ∀ u x, (s1.cache.setAll ((targets tr v).zip rs)) u = some x → Val sem w u x := by
                intro u x hu
                rcases setAll_some _ _ _ _ hu with hu | hu
                · exact hv u x hu
                · exact g1 u x hu
              exact ⟨this, fun x hx => this v x hx⟩

/-! ## Growth and uniqueness -/

omit [DecidableEq N] in
theorem pre_get {α : Type} {l l' : List α} {i : Nat} {a : α} (h : l <+: l') (hi : l[i]? = some a) : l'[i]? = some a := by
  obtain ⟨r, rfl⟩ := h
  rw [List.getElem?_append_left (List.getElem?_eq_some_iff.mp hi).1]
  exact hi


mutual
theorem val_grows {sem : Nat → Sem V} {w w' : List (Tr N V)} (hg : Grows w w') : ∀ {v : N} {x : V}, Val sem w v x → Val sem w' v x
  | _, _, .const h1 h2 h3 => by
    obtain ⟨tr', e1, ea, eb, _⟩ := hg _ _ h1
    exact .const e1 (pre_get ea h2) (pre_get eb h3)
  | _, _, .capt h1 h2 h3 h4 => by
    obtain ⟨tr', e1, ea, eb, _⟩ := hg _ _ h1
    exact .capt e1 (pre_get ea h2) (pre_get eb h3)
      (val_grows hg h4)
  | _, _, .op h1 h2 h3 h4 h5 h6 => by
    obtain ⟨tr', e1, _, _, ec⟩ := hg _ _ h1
    exact .op e1 (pre_get ec h2) (vals_grows hg h3) h4 h5 h6
theorem vals_grows {sem : Nat → Sem V} {w w' : List (Tr N V)} (hg : Grows w w') : ∀ {vs : List N} {xs : List V},
    Vals sem w vs xs → Vals sem w' vs xs
  | _, _, .nil => .nil
  | _, _, .cons h1 h2 => .cons (val_grows hg h1) (vals_grows hg h2)
end

omit [DecidableEq N] in
/-- in a duplicate-free concatenation a member determines its block -/
theorem block_unique {α β : Type} (f : α → List β) (l : List α) (h : (l.flatMap f).Nodup) (i j : Nat) (a b : α)
    (hi : l[i]? = some a) (hj : l[j]? = some b) (x : β) (ha : x ∈ f a) (hb : x ∈ f b) : i = j := by
  induction l generalizing i j with
  | nil => simp at hi
  | cons c l ih =>
    rw [List.flatMap_cons, List.nodup_append] at h
    obtain ⟨_, h2, h3⟩ := h
    cases i with
    | zero =>
      cases j with
      | zero => rfl
      | succ j =>
        simp only [List.getElem?_cons_zero, Option.some.injEq] at hi
        simp only [List.getElem?_cons_succ] at hj
        subst hi
        exact absurd rfl (h3 x ha x (List.mem_flatMap.mpr ⟨b, List.mem_of_getElem? hj, hb⟩))
    | succ i =>
      cases j with
      | zero =>
        simp only [List.getElem?_cons_zero, Option.some.injEq] at hj
        simp only [List.getElem?_cons_succ] at hi
        subst hj
        exact absurd rfl (h3 x hb x (List.mem_flatMap.mpr ⟨a, List.mem_of_getElem? hi, ha⟩))
      | succ j =>
        simp only [List.getElem?_cons_succ] at hi hj
        rw [ih h2 i j hi hj]

omit [DecidableEq N] in
theorem block_nodup {α β : Type} (f : α → List β) (l : List α) (h : (l.flatMap f).Nodup) (i : Nat) (a : α)
    (hi : l[i]? = some a) : (f a).Nodup := by
  rw [List.nodup_flatMap] at h
  exact h.1 a (List.mem_of_getElem? hi)

omit [DecidableEq N] in
theorem nodup_idx {α : Type} {l : List α} (h : l.Nodup) {i j : Nat} {a : α} (hi : l[i]? = some a) (hj : l[j]? = some a) : i = j := by
  obtain ⟨h1, e1⟩ := List.getElem?_eq_some_iff.mp hi
  obtain ⟨h2, e2⟩ := List.getElem?_eq_some_iff.mp hj
  exact (List.Nodup.getElem_inj_iff h).mp (e1.trans e2.symm)

theorem mem_defs_in {tr : Tr N V} {j : Nat} {v : N} (h : tr.inputs[j]? = some v) : v ∈ tr.defs :=
  List.mem_append_left _ (List.mem_of_getElem? h)
theorem mem_defs_op {sem : Nat → Sem V} {t : Nat} {tr : Tr N V} {i : Nat} {o : Op N} {r : V} {bs : List (N × V)} {v : N} {x : V}
    (h : tr.ops[i]? = some o) (hb : bindOuts (sem t) o.outs r = some bs) (hv : (v, x) ∈ bs) : v ∈ o.outs ∧ v ∈ tr.defs := by
  have h1 : v ∈ o.outs := by
    rw [← bindOuts_fst _ _ _ _ hb]
    exact List.mem_map.mpr ⟨_, hv, rfl⟩
  exact ⟨h1, List.mem_append_right _ (List.mem_flatMap.mpr ⟨o, List.mem_of_getElem? h, h1⟩)⟩

omit [DecidableEq N] in
theorem fst_unique {bs : List (N × V)} (h : (bs.map Prod.fst).Nodup) {v : N} {x y : V} (hx : (v, x) ∈ bs) (hy : (v, y) ∈ bs) : x = y := by
  induction bs with
  | nil => simp at hx
  | cons b bs ih =>
    simp only [List.map_cons, List.nodup_cons] at h
    rcases List.mem_cons.mp hx with rfl | hx'
    · rcases List.mem_cons.mp hy with e | hy'
      · exact (Prod.mk.inj e).2.symm
      · exact absurd (List.mem_map.mpr ⟨_, hy', rfl⟩) h.1
    · rcases List.mem_cons.mp hy with rfl | hy'
      · exact absurd (List.mem_map.mpr ⟨_, hx', rfl⟩) h.1
      · exact ih h.2 hx' hy'

/-- a value defined by an input of a graph is not the result of an op, and vice versa -/
theorem no_mix {w : List (Tr N V)} (hd : Distinct w) {t t' : Nat} {tr tr' : Tr N V} (ht : w[t]? = some tr) (ht' : w[t']? = some tr')
    {j : Nat} {v : N} (hin : tr.inputs[j]? = some v) {i : Nat} {o : Op N} (ho : tr'.ops[i]? = some o) (hv : v ∈ o.outs) : False := by
  have hm : v ∈ tr'.defs := List.mem_append_right _ (List.mem_flatMap.mpr ⟨o, List.mem_of_getElem? ho, hv⟩)
  have := block_unique Tr.defs w hd t t' tr tr' ht ht' v (mem_defs_in hin) hm
  subst this
  rw [ht] at ht'
  cases ht'
  have hn := block_nodup Tr.defs w hd t tr ht
  rw [Tr.defs, List.nodup_append] at hn
  exact hn.2.2 v (List.mem_of_getElem? hin) v (List.mem_flatMap.mpr ⟨o, List.mem_of_getElem? ho, hv⟩) rfl

theorem in_unique {w : List (Tr N V)} (hd : Distinct w) {t t' : Nat} {tr tr' : Tr N V} (ht : w[t]? = some tr) (ht' : w[t']? = some tr')
    {j j' : Nat} {v : N} (hin : tr.inputs[j]? = some v) (hin' : tr'.inputs[j']? = some v) : tr = tr' ∧ j = j' := by
  have := block_unique Tr.defs w hd t t' tr tr' ht ht' v (mem_defs_in hin) (mem_defs_in hin')
  subst this
  rw [ht] at ht'
  cases ht'
  have hn := block_nodup Tr.defs w hd t tr ht
  rw [Tr.defs, List.nodup_append] at hn
  exact ⟨rfl, nodup_idx hn.1 hin hin'⟩

mutual
theorem val_unique {sem : Nat → Sem V} {w : List (Tr N V)} (hd : Distinct w) : ∀ {v : N} {x y : V},
    Val sem w v x → Val sem w v y → x = y
  | _, _, _, .const h1 h2 h3, hy => by
    cases hy with
    | const k1 k2 k3 =>
      obtain ⟨rfl, rfl⟩ := in_unique hd h1 k1 h2 k2
      rw [h3] at k3
      cases k3; rfl
    | capt k1 k2 k3 k4 =>
      obtain ⟨rfl, rfl⟩ := in_unique hd h1 k1 h2 k2
      rw [h3] at k3
      cases k3
    | op k1 k2 k3 k4 k5 k6 => exact (no_mix hd h1 k1 h2 k2 (mem_defs_op k2 k5 k6).1).elim
  | _, _, _, .capt h1 h2 h3 h4, hy => by
    cases hy with
    | const k1 k2 k3 =>
      obtain ⟨rfl, rfl⟩ := in_unique hd h1 k1 h2 k2
      rw [h3] at k3
      cases k3
    | capt k1 k2 k3 k4 =>
      obtain ⟨rfl, rfl⟩ := in_unique hd h1 k1 h2 k2
      rw [h3] at k3
      cases k3
      exact val_unique hd h4 k4
    | op k1 k2 k3 k4 k5 k6 => exact (no_mix hd h1 k1 h2 k2 (mem_defs_op k2 k5 k6).1).elim
  | _, _, _, .op (t := t) h1 h2 h3 h4 h5 h6, hy => by
    have hv := mem_defs_op h2 h5 h6
    cases hy with
    | const k1 k2 k3 => exact (no_mix hd k1 h1 k2 h2 hv.1).elim
    | capt k1 k2 k3 k4 => exact (no_mix hd k1 h1 k2 h2 hv.1).elim
    | op k1 k2 k3 k4 k5 k6 =>
      have kv := mem_defs_op k2 k5 k6
      have := block_unique Tr.defs w hd _ _ _ _ h1 k1 _ hv.2 kv.2
      subst this
      rw [h1] at k1
      cases k1
      have hn := block_nodup Tr.defs w hd _ _ h1
      rw [Tr.defs, List.nodup_append] at hn
      have := block_unique Op.outs _ hn.2.1 _ _ _ _ h2 k2 _ hv.1 kv.1
      subst this
      rw [h2] at k2
      cases k2
      have := vals_unique hd h3 k3
      subst this
      rw [h4] at k4
      cases k4
      rw [h5] at k5
      cases k5
      have hno := block_nodup Op.outs _ hn.2.1 _ _ h2
      rw [← bindOuts_fst _ _ _ _ h5] at hno
      exact fst_unique hno h6 k6
theorem vals_unique {sem : Nat → Sem V} {w : List (Tr N V)} (hd : Distinct w) : ∀ {vs : List N} {xs ys : List V},
    Vals sem w vs xs → Vals sem w vs ys → xs = ys
  | _, _, _, .nil, hy => by cases hy; rfl
  | _, _, _, .cons h1 h2, hy => by
    cases hy with
    | cons k1 k2 => rw [val_unique hd h1 k1, vals_unique hd h2 k2]
end
end
end Verif.Interp.Lift
