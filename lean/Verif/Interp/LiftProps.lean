import Verif.Interp.Lift
/-!
# C14 — property theorems about lazy evaluation
-/
namespace Verif.Interp.Lift
open Verif.Interp
section
variable {N V : Type} [DecidableEq N]

/-- One event of a history: the traced program grows to a new world, or user code requests the value of a traced object. -/
inductive Ev (N V : Type) where
  | grow (w : List (Tr N V))
  | request (t : Nat) (v : N)

/-- run a history (recursion limit `fuel` for nested captures); the answers are collected as (value, answer) -/
def run (sem : Nat → Sem V) (fuel : Nat) : List (Ev N V) → List (Tr N V) → LS N V → List (Tr N V) × LS N V × List (N × Option V)
  | [], w, s => (w, s, [])
  | .grow w' :: es, _, s => run sem fuel es w' s
  | .request t v :: es, w, s =>
    let r := lift sem w fuel t v s
    let q := run sem fuel es w r.1
    (q.1, q.2.1, (v, r.2) :: q.2.2)

/-- every `grow` event leads to a later state of the world -/
def Legal : List (Ev N V) → List (Tr N V) → Prop
  | [], _ => True
  | .grow w' :: es, w => Grows w w' ∧ Legal es w'
  | .request _ _ :: es, w => Legal es w

theorem grows_refl (w : List (Tr N V)) : Grows w w :=
  fun _ tr h => ⟨tr, h, List.prefix_rfl, List.prefix_rfl, List.prefix_rfl⟩
theorem grows_trans {a b c : List (Tr N V)} (h1 : Grows a b) (h2 : Grows b c) : Grows a c := by
  intro t tr h
  obtain ⟨tr', e1, p1, p2, p3⟩ := h1 t tr h
  obtain ⟨tr'', e2, q1, q2, q3⟩ := h2 t tr' e1
  exact ⟨tr'', e2, p1.trans q1, p2.trans q2, p3.trans q3⟩

theorem run_sound (sem : Nat → Sem V) (fuel : Nat) (es : List (Ev N V)) (w w' : List (Tr N V)) (s s' : LS N V) (as)
    (hl : Legal es w) (hg : Good sem w s) (h : run sem fuel es w s = (w', s', as)) :
    Grows w w' ∧ Good sem w' s' ∧ ∀ v x, (v, some x) ∈ as → Val sem w' v x := by
  induction es generalizing w s as with
  | nil =>
    simp only [run, Prod.mk.injEq] at h
    obtain ⟨rfl, rfl, rfl⟩ := h
    exact ⟨grows_refl _, hg, by simp⟩
  | cons e es ih =>
    cases e with
    | grow w1 =>
      obtain ⟨h1, h2⟩ := hl
      obtain ⟨a1, a2, a3⟩ := ih w1 s as h2 (fun v x hv => val_grows h1 (hg v x hv)) h
      exact ⟨grows_trans h1 a1, a2, a3⟩
    | request t v =>
      simp only [run, Prod.mk.injEq] at h
      obtain ⟨rfl, rfl, rfl⟩ := h
      obtain ⟨g1, g2⟩ := lift_sound_aux sem w fuel t v s _ _ hg rfl
      obtain ⟨a1, a2, a3⟩ := ih w (lift sem w fuel t v s).1 _ hl g1 rfl
      refine ⟨a1, a2, ?_⟩
      intro u x hu
      rcases List.mem_cons.mp hu with e | hu
      · simp only [Prod.mk.injEq] at e
        obtain ⟨rfl, e⟩ := e
        exact val_grows a1 (g2 x e.symm)
      · exact a3 u x hu

/-- **C14** Whatever the history of tracing and requests (nested tracers included), every value handed out is the value of
the requested object: the result of its defining op on the values of its operands. -/
theorem lazy_value_correct (sem : Nat → Sem V) (fuel : Nat) (w : List (Tr N V)) (es : List (Ev N V)) (hl : Legal es w)
    (v : N) (x : V) (h : (v, some x) ∈ (run sem fuel es w ⟨fun _ => none, []⟩).2.2) :
    Val sem (run sem fuel es w ⟨fun _ => none, []⟩).1 v x :=
  (run_sound sem fuel es w _ _ _ _ hl (by intro v x hv; simp at hv) rfl).2.2 v x h

/-- **C14** Two successful requests for the same object return the same value, at whatever points of the history. -/
theorem lazy_value_stable (sem : Nat → Sem V) (fuel : Nat) (w : List (Tr N V)) (es : List (Ev N V)) (hl : Legal es w)
    (hd : Distinct (run sem fuel es w ⟨fun _ => none, []⟩).1) (v : N) (x y : V)
    (hx : (v, some x) ∈ (run sem fuel es w ⟨fun _ => none, []⟩).2.2)
    (hy : (v, some y) ∈ (run sem fuel es w ⟨fun _ => none, []⟩).2.2) : x = y :=
  val_unique hd (lazy_value_correct sem fuel w es hl v x hx) (lazy_value_correct sem fuel w es hl v y hy)

/-- **C14** (cache) A request whose value is in the cache returns the cached object, runs nothing and changes nothing. -/
theorem lazy_cached (sem : Nat → Sem V) (w : List (Tr N V)) (fuel t : Nat) (v : N) (x : V) (s : LS N V) (h : s.cache v = some x) :
    lift sem w (fuel + 1) t v s = (s, some x) := by
  simp [lift, h]

theorem setAll_zip_mem (e : Env N V) (vs : List N) (rs : List V) (hl : vs.length = rs.length) (v : N) (hv : v ∈ vs) :
    ∃ x, (e.setAll (vs.zip rs)) v = some x := by
  have := setAll_mem_isSome e (vs.zip rs) v (by rw [List.map_fst_zip (by omega)]; exact hv)
  exact Option.isSome_iff_exists.mp this

theorem resolve_length (e : Env N V) (vs : List N) (rs : List V) (h : resolve e vs = some rs) : vs.length = rs.length := by
  induction vs generalizing rs with
  | nil => simp only [resolve, Option.some.injEq] at h; subst h; rfl
  | cons v vs ih =>
    simp only [resolve] at h
    split at h
    · simp at h
    · split at h
      · simp at h
      · rename_i h2
        simp only [Option.some.injEq] at h
        subst h
        simp [ih _ h2]

theorem evalSync_length (sem : Sem V) (g : Graph N) (args rs : List V) (h : evalSync sem g args = some rs) :
    g.outputs.length = rs.length := by
  simp only [evalSync] at h
  split at h
  · simp at h
  · split at h
    · simp at h
    · exact resolve_length _ _ _ h

/-- **C14** (siblings) After a successful request every output of the same op is cached, so requesting any of them later
runs nothing. -/
theorem lazy_siblings_cached (sem : Nat → Sem V) (w : List (Tr N V)) (fuel t : Nat) (tr : Tr N V) (ht : w[t]? = some tr)
    (v u : N) (o : Op N) (ho : tr.ops.find? (fun o => decide (v ∈ o.outs)) = some o) (hu : u ∈ o.outs) (s s' : LS N V) (x : V)
    (hn : s.cache v = none) (h : lift sem w (fuel + 1) t v s = (s', some x)) :
    ∃ y, ∀ fuel', lift sem w (fuel' + 1) t u s' = (s', some y) := by
  simp only [lift, hn, ht] at h
  cases h1 : liftCaps (lift sem w fuel) tr.caps s with
  | mk s1 r1 =>
    cases r1 with
    | none => simp [h1] at h
    | some args =>
      simp only [h1] at h
      cases he : evalSync (sem t) ⟨tr.inputs, tr.ops, targets tr v⟩ args with
      | none => simp [he] at h
      | some rs =>
        simp only [he, Prod.mk.injEq] at h
        obtain ⟨rfl, _⟩ := h
        have ht' : targets tr v = o.outs := by simp [targets, ho]
        obtain ⟨y, hy⟩ := setAll_zip_mem s1.cache (targets tr v) rs (evalSync_length _ _ _ _ he) u (by rw [ht']; exact hu)
        exact ⟨y, fun f => lazy_cached sem w f t u y _ hy⟩

/-- the cache is never overwritten by another value and never loses an entry -/
theorem lift_mono (sem : Nat → Sem V) (w : List (Tr N V)) (hd : Distinct w) (fuel : Nat) : ∀ t v s s' r, Good sem w s →
    lift sem w fuel t v s = (s', r) → ∀ u x, s.cache u = some x → s'.cache u = some x := by
  have key : ∀ (s s' : LS N V), Good sem w s → Good sem w s' → (∀ u x, s.cache u = some x → ∃ y, s'.cache u = some y) →
      ∀ u x, s.cache u = some x → s'.cache u = some x := by
    intro s s' h1 h2 h3 u x hx
    obtain ⟨y, hy⟩ := h3 u x hx
    rw [hy, val_unique hd (h1 u x hx) (h2 u y hy)]
  have caps : ∀ (l : Nat → N → LS N V → LS N V × Option V), (∀ t v s s' r, Good sem w s → l t v s = (s', r) →
      Good sem w s' ∧ ∀ u x, s.cache u = some x → s'.cache u = some x) → ∀ cs s s' r, Good sem w s → liftCaps l cs s = (s', r) →
      ∀ u x, s.cache u = some x → s'.cache u = some x := by
    intro l hl cs
    induction cs with
    | nil => intro s s' r _ h; simp only [liftCaps, Prod.mk.injEq] at h; obtain ⟨rfl, _⟩ := h; exact fun _ _ h => h
    | cons c cs ih =>
      intro s s' r hg h
      cases c with
      | const x =>
        simp only [liftCaps] at h
        cases h1 : liftCaps l cs s with
        | mk s1 r1 =>
          have := ih s s1 r1 hg h1
          cases r1 with
          | none => simp only [h1, Prod.mk.injEq] at h; obtain ⟨rfl, _⟩ := h; exact this
          | some xs => simp only [h1, Prod.mk.injEq] at h; obtain ⟨rfl, _⟩ := h; exact this
      | traced t v =>
        simp only [liftCaps] at h
        cases h0 : l t v s with
        | mk s0 r0 =>
          obtain ⟨g0, m0⟩ := hl t v s s0 r0 hg h0
          cases r0 with
          | none => simp only [h0, Prod.mk.injEq] at h; obtain ⟨rfl, _⟩ := h; exact m0
          | some x =>
            simp only [h0] at h
            cases h1 : liftCaps l cs s0 with
            | mk s1 r1 =>
              have := ih s0 s1 r1 g0 h1
              cases r1 with
              | none => simp only [h1, Prod.mk.injEq] at h; obtain ⟨rfl, _⟩ := h; exact fun u x hx => this u x (m0 u x hx)
              | some xs => simp only [h1, Prod.mk.injEq] at h; obtain ⟨rfl, _⟩ := h; exact fun u x hx => this u x (m0 u x hx)
  induction fuel with
  | zero => intro t v s s' r _ h; simp only [lift, Prod.mk.injEq] at h; obtain ⟨rfl, _⟩ := h; exact fun _ _ h => h
  | succ fuel ih =>
    intro t v s s' r hg h
    have hg' := (lift_sound_aux sem w (fuel + 1) t v s s' r hg h).1
    simp only [lift] at h
    cases hc : s.cache v with
    | some x => simp only [hc, Prod.mk.injEq] at h; obtain ⟨rfl, _⟩ := h; exact fun _ _ h => h
    | none =>
      simp only [hc] at h
      cases ht : w[t]? with
      | none => simp only [ht, Prod.mk.injEq] at h; obtain ⟨rfl, _⟩ := h; exact fun _ _ h => h
      | some tr =>
        simp only [ht] at h
        cases h1 : liftCaps (lift sem w fuel) tr.caps s with
        | mk s1 r1 =>
          have m1 := caps _ (fun t v s s' r hg h => ⟨(lift_sound_aux sem w fuel t v s s' r hg h).1, ih t v s s' r hg h⟩)
            tr.caps s s1 r1 hg h1
          cases r1 with
          | none => simp only [h1, Prod.mk.injEq] at h; obtain ⟨rfl, _⟩ := h; exact m1
          | some args =>
            simp only [h1] at h
            cases he : evalSync (sem t) ⟨tr.inputs, tr.ops, targets tr v⟩ args with
            | none => simp only [he, Prod.mk.injEq] at h; obtain ⟨rfl, _⟩ := h; exact m1
            | some rs =>
              simp only [he, Prod.mk.injEq] at h
              obtain ⟨rfl, _⟩ := h
              refine key s _ hg hg' ?_
              intro u x hx
              have hx1 := m1 u x hx
              by_cases hm : u ∈ targets tr v
              · exact setAll_zip_mem s1.cache (targets tr v) rs (evalSync_length _ _ _ _ he) u hm
              · refine ⟨x, ?_⟩
                simp only
                rw [setAll_not_mem _ _ _ (fun hmem => hm ?_)]
                · exact hx1
                · obtain ⟨p, hp, rfl⟩ := List.mem_map.mp hmem
                  exact (List.of_mem_zip hp).1

/-- **C14** Once a value has been handed out, requesting it again — immediately or after any further history over the same
world — runs nothing. -/
theorem lazy_once_per_value (sem : Nat → Sem V) (w : List (Tr N V)) (hd : Distinct w) (fuel : Nat) (s : LS N V)
    (hg : Good sem w s) (t : Nat) (v : N) (s1 : LS N V) (x : V) (h : lift sem w fuel t v s = (s1, some x))
    (qs : List (Nat × N)) :
    let s2 := qs.foldl (fun s q => (lift sem w fuel q.1 q.2 s).1) s1
    lift sem w fuel t v s2 = (s2, some x) := by
  have hc : s1.cache v = some x := by
    cases fuel with
    | zero => simp [lift] at h
    | succ f =>
      simp only [lift] at h
      split at h
      · rename_i hx; simp only [Prod.mk.injEq, Option.some.injEq] at h; obtain ⟨rfl, rfl⟩ := h; exact hx
      · split at h
        · simp at h
        · split at h
          · simp at h
          · split at h
            · simp at h
            · simp only [Prod.mk.injEq] at h
              obtain ⟨rfl, h⟩ := h
              exact h
  have hg1 := (lift_sound_aux sem w fuel t v s s1 _ hg h).1
  have : ∀ qs : List (Nat × N), ∀ s1 : LS N V, Good sem w s1 → s1.cache v = some x →
      (qs.foldl (fun s q => (lift sem w fuel q.1 q.2 s).1) s1).cache v = some x := by
    intro qs
    induction qs with
    | nil => intro s1 _ h; exact h
    | cons q qs ih =>
      intro s1 g hv
      exact ih _ (lift_sound_aux sem w fuel q.1 q.2 s1 _ _ g rfl).1 (lift_mono sem w hd fuel q.1 q.2 s1 _ _ g rfl v x hv)
  intro s2
  have h2 := this qs s1 hg1 hc
  cases fuel with
  | zero => simp [lift] at h
  | succ f => exact lazy_cached sem w f t v x s2 h2

end

/-- Two chained ops on one captured constant: `1 = f 0`, `2 = g 1`. -/
def demo : List (Tr Nat Nat) := [⟨[0], [.const 5], [⟨[0], [1]⟩, ⟨[1], [2]⟩]⟩]
/-- handlers of `demo`: both add one -/
def demoSem : Nat → Sem Nat := fun _ => ⟨fun _ => true, fun _ args => args.head?.map (· + 1), fun _ => none⟩

/-- **C14** (violated part) An op runs more than once: each request for a value not in the cache re-evaluates the whole
graph, so requesting `1` and then `2` runs both ops twice (4 op executions for 2 ops). -/
theorem lazy_op_runs_once_violated :
    ((run demoSem 3 [.request 0 1, .request 0 2] demo ⟨fun _ => none, []⟩).2.1.log = [(0, 2), (0, 2)]) := by decide

/-! Non-vacuity: the history grows the world between requests and uses a nested tracer. -/

/-- `demo` with one more op and a second tracer capturing value `2` -/
def demo2 : List (Tr Nat Nat) := [⟨[0], [.const 5], [⟨[0], [1]⟩, ⟨[1], [2]⟩, ⟨[1], [3]⟩]⟩, ⟨[10], [.traced 0 2], [⟨[10], [11]⟩]⟩]

example : Legal [.request 0 1, .grow demo2, .request 1 11, .request 0 2] demo := by
  refine ⟨?_, trivial⟩
  intro t tr h
  match t with
  | 0 =>
    simp only [demo, List.getElem?_cons_zero, Option.some.injEq] at h
    subst h
    exact ⟨_, rfl, List.prefix_rfl, List.prefix_rfl, ⟨[⟨[1], [3]⟩], rfl⟩⟩
  | t + 1 => simp [demo] at h
example : Distinct demo2 := by unfold Distinct; decide
example : (run demoSem 3 [.request 0 1, .grow demo2, .request 1 11, .request 0 2] demo ⟨fun _ => none, []⟩).2.2 =
    [(1, some 6), (11, some 8), (2, some 7)] := by decide

end Verif.Interp.Lift
