import Verif.Driver.Props
import Verif.Simp.Props
/-!
# C105 — a multi-party program run through the driver, end to end

The driver's interpreter walks over the top-level operations (interpreter.py, C11), and every `simp` operation is wrapped into
a graph of its own (backends/simp_driver/ops.py:39-64), sent to all workers with the URIs of the arguments, run there by one
process per party that exchanges messages with the others (backends/simp_worker/ops.py, `regionRun`), and the results are
stored and collected (C32).  Here the pieces are put together: stores, URIs, wrapper graphs, messages and all schedules, on
one side; the specification `Ev` of multi-party programs (vectors of local values, no messages) on the other.

Every request runs with a communication context of its own whose counters start at zero and whose identifier is the constant
"anonymous" (mem.py:214, http.py:667, request.py:53), so message names repeat from one operation to the next; the mailboxes
are kept.  Simplifications: as in `Verif.Simp` and `Verif.Driver`; requests of one program only (for requests of
several programs see `Verif.Driver.Concurrent`).
-/
namespace Verif.Driver.Spmd
open Verif.Comm Verif.Simp Verif.Driver

variable {V T E : Type}

/-- The values an operation takes, in the order of `op.inputs`. (dialects/simp.py:195-226 `cond`: predicate first;
simp.py:316-346 `while_loop`: state, then captured values) -/
def inputs : Simp.Op V T → List Nat
  | .pcall _ _ _ args => args
  | .pcallDyn _ _ args => args
  | .shuffle _ arg => [arg]
  | .converge args => args
  | .cond _ pred args _ _ => pred :: args
  | .loop state caps _ _ => state ++ caps

/-- The number of values a block returns. -/
def blockOuts : Region V T → Nat
  | .mk _ outs => outs.length

/-- `len(op.outputs)` -/
def numOuts : Simp.Op V T → Nat
  | .pcall _ _ outs _ => outs.length
  | .pcallDyn _ outs _ => outs.length
  | .shuffle _ _ => 1
  | .converge _ => 1
  | .cond _ _ _ thn _ => blockOuts thn
  | .loop state _ _ _ => state.length

/-- The same operation on the wrapper's own inputs `in_0, in_1, …` (backends/simp_driver/ops.py:39-58) -/
def renumber : Simp.Op V T → Simp.Op V T
  | .pcall ps F outs args => .pcall ps F outs (List.range args.length)
  | .pcallDyn F outs args => .pcallDyn F outs (List.range args.length)
  | .shuffle r _ => .shuffle r 0
  | .converge args => .converge (List.range args.length)
  | .cond v _ args thn els => .cond v 0 ((List.range args.length).map (1 + ·)) thn els
  | .loop state caps c b => .loop (List.range state.length) ((List.range caps.length).map (state.length + ·)) c b

/-- `_wrap_op_as_graph` (backends/simp_driver/ops.py:39-64): inputs, the one operation, its outputs. -/
def wrapper (o : Simp.Op V T) : Region V T :=
  .mk (.cons (renumber o) .nil) ((List.range (numOuts o)).map ((inputs o).length + ·))

/-- The arguments of an operation as the driver holds them. -/
def argVars (o : Simp.Op V T) (env : List DriverVar) : List DriverVar := (inputs o).map (fun a => env.getD a [])

/-- The workers when an operation has been submitted to all of them: party `p` runs the wrapper graph on its resolved inputs;
counters start at zero, the mailboxes are as they were left. (simp_driver/mem.py:207-236, simp_worker/request.py:53) -/
def start (tr : V → Bool) (N fuel : Nat) (o : Simp.Op V T) (stores : List (Store V)) (env : List DriverVar)
    (slots : Key → Slot (SMsg V)) : Net (SMsg V) (List (LV V)) :=
  ⟨fun p => regionRun tr N fuel p (wrapper o) ((given (E := Unit) (allInputs stores (argVars o env))).getD p []), fun _ _ => 0, slots⟩

/-- **Specification of a run.** `Completes … post`: every schedule of the workers and of message delivery comes to the end of
each operation, every party returns (`t.proc p = .ret (rs p)`), the driver then collects the results, and after the last
operation the stores and the driver's variables satisfy `post`. -/
inductive Completes (tr : V → Bool) (N fuel : Nat) : List (Simp.Op V T) → List (Store V) → List DriverVar → (Key → Slot (SMsg V)) →
    (List (Store V) → List DriverVar → Prop) → Prop where
  | done {stores env slots post} : post stores env → Completes tr N fuel [] stores env slots post
  | op {o os stores env slots post} (t : Net (SMsg V) (List (LV V))) (rs : Nat → List (LV V)) (stores' : List (Store V)) (outs : List DriverVar) :
      Always N (start tr N fuel o stores env slots) t →
      (∀ p, p < N → t.proc p = .ret (rs p)) →
      dispatch (E := Unit) (fun _ => (List.range N).map fun p => .ok (rs p)) (numOuts o) stores (argVars o env) = (stores', .ok outs) →
      Completes tr N fuel os stores' (env ++ outs) t.slot post →
      Completes tr N fuel (o :: os) stores env slots post

/-- What party `p` holds of the driver's variables. -/
def local_ (stores : List (Store V)) (env : List DriverVar) (p : Nat) : List (LV V) :=
  env.map fun x => ((fetch stores x)[p]?).join

/-! ### Proof -/

theorem pick_range {α : Type} (l : List α) (pre post : List α) : pick (pre ++ l ++ post) ((List.range l.length).map (pre.length + ·)) = some l := by
  induction l generalizing pre with
  | nil => rfl
  | cons x l ih =>
    rw [List.length_cons, List.range_succ_eq_map]
    simp only [List.map_cons, List.map_map, pick, Nat.add_zero]
    have h1 : (pre ++ x :: l ++ post)[pre.length]? = some x := by simp
    have h2 := ih (pre ++ [x])
    simp only [List.length_append, List.length_cons, List.length_nil, Nat.zero_add, List.append_assoc, List.cons_append, List.nil_append] at h2
    have h3 : (fun i => pre.length + i) ∘ Nat.succ = fun i => pre.length + 1 + i := by funext i; simp; omega
    rw [h1, h3]
    simp only [List.append_assoc, List.cons_append]
    rw [h2]

theorem pick_range' {α : Type} (l : List α) : pick l (List.range l.length) = some l := by
  have := pick_range l [] []
  simpa using this

theorem pick_length {α : Type} {env : List α} {is : List Nat} {r : List α} (h : pick env is = some r) : r.length = is.length := by
  induction is generalizing r with
  | nil => cases h; rfl
  | cons i is ih =>
    simp only [pick] at h
    split at h
    · next x xs h1 h2 => cases h; simp [ih h2]
    · cases h

theorem pick_append {α : Type} {env : List α} {a b : List Nat} {r : List α} (h : pick env (a ++ b) = some r) :
    ∃ x y, pick env a = some x ∧ pick env b = some y ∧ r = x ++ y := by
  induction a generalizing r with
  | nil => exact ⟨[], r, rfl, h, rfl⟩
  | cons i a ih =>
    simp only [List.cons_append, pick] at h
    split at h
    · next x xs h1 h2 =>
      cases h
      obtain ⟨u, v, hu, hv, rfl⟩ := ih h2
      exact ⟨x :: u, v, by simp [pick, h1, hu], hv, rfl⟩
    · cases h

section
variable [DecidableEq T] (tr : V → Bool) (N : Nat)

theorem region_length {r : Region V T} {σ ρ : Nat → List (LV V)} (h : Ev tr N (.region r) σ ρ) {p : Nat} (hp : p < N) :
    (ρ p).length = blockOuts r := by
  cases h with
  | region os outs _ σ' _ _ h2 => exact pick_length (h2 p hp)

theorem regionTy_length {s : Bool} {r : Region V T} {Γ Δ : List (Ty T)} (h : regionTy s r Γ = some Δ) : Δ.length = blockOuts r := by
  cases r with
  | mk ops outs =>
    simp only [regionTy, Option.bind_eq_some_iff] at h
    obtain ⟨_, _, h⟩ := h
    exact pick_length h

/-- The operation returns as many values as it declares. -/
theorem opTy_length {o : Simp.Op V T} {Γ Δ : List (Ty T)} (h : opTy false o Γ = some Δ) : Δ.length = numOuts o := by
  cases o with
  | pcall ps F outs args =>
    simp only [opTy, Option.bind_eq_some_iff] at h
    obtain ⟨ts, _, h⟩ := h
    split at h
    · cases h; simp [numOuts]
    · cases h
  | pcallDyn F outs args =>
    simp only [opTy, Option.bind_eq_some_iff] at h
    obtain ⟨ts, _, h⟩ := h
    cases h; simp [numOuts]
  | shuffle r arg =>
    simp only [opTy, Option.bind_eq_some_iff] at h
    obtain ⟨ts, _, h⟩ := h
    split at h
    · cases h; simp [numOuts]
    · cases h
  | converge args =>
    simp only [opTy, Option.bind_eq_some_iff, Option.map_eq_some_iff] at h
    obtain ⟨ts, _, t, _, h⟩ := h
    cases h; simp [numOuts]
  | cond v pred args thn els =>
    simp only [opTy, Option.bind_eq_some_iff] at h
    obtain ⟨_, _, ts, _, a, ha, b, hb, h⟩ := h
    split at h
    · cases h; exact regionTy_length ha
    · cases h
  | loop state caps c b =>
    simp only [opTy, Option.bind_eq_some_iff] at h
    obtain ⟨ts, h1, cs, _, a, ha, b, hb, h⟩ := h
    split at h
    · cases h; exact pick_length h1
    · cases h

/-- Loops keep the number of state values. -/
theorem loop_length {c b : Region V T} {cs st ρ : Nat → List (LV V)} (n : Nat) (hb : blockOuts b = n)
    (h : Ev tr N (.loop c b cs) st ρ) (hst : ∀ p, p < N → (st p).length = n) {p : Nat} (hp : p < N) : (ρ p).length = n := by
  generalize ht : Task.loop c b cs = t at h
  induction h with
  | loopDone cnd body cs st cv ρ h1 h2 h3 => cases ht; rw [h3 p hp]; exact hst p hp
  | loopStep cnd body cs st st' cv ρ h1 h2 h3 h4 _ _ ih =>
    cases ht
    refine ih (fun q hq => ?_) rfl
    rw [region_length tr N h3 hq, hb]
  | _ => cases ht

theorem op_length {o : Simp.Op V T} {Γ Δ : List (Ty T)} (ht : opTy false o Γ = some Δ) {σ ρ : Nat → List (LV V)}
    (h : Ev tr N (.op o) σ ρ) {p : Nat} (hp : p < N) : (ρ p).length = numOuts o := by
  cases h with
  | pcall parties F outs args _ _ a h1 h2 h3 =>
    by_cases hm : p ∈ parties
    · exact (h2 p hp hm).2
    · rw [h3 p hp hm]; simp [numOuts]
  | pcallDyn F outs args _ _ a h1 h2 => exact (h2 p hp).2
  | shuffle routing arg _ _ d h1 h2 h3 h4 => rw [h4 p hp]; rfl
  | converge args _ _ a h1 h2 => rw [h2 p hp]; rfl
  | cond verify pred args thn els _ _ a v b h1 h2 h3 h4 =>
    have := region_length tr N h4 hp
    simp only [opTy, Option.bind_eq_some_iff] at ht
    obtain ⟨_, _, ts, _, x, hx, y, hy, ht⟩ := ht
    split at ht
    · next hxy =>
      have e1 := regionTy_length hx
      have e2 := regionTy_length hy
      cases b
      · rw [this]; simp only [numOuts, Bool.false_eq_true, if_false]; rw [← e1, ← e2, hxy]
      · rw [this]; simp only [numOuts, if_true]
    · cases ht
  | loopOp state caps c b _ _ st cs h1 h2 h3 =>
    simp only [opTy, Option.bind_eq_some_iff] at ht
    obtain ⟨ts, e1, _, _, x, hx, y, hy, ht⟩ := ht
    split at ht
    · next hxy =>
      have e2 := regionTy_length hy
      rw [hxy.2, pick_length e1] at e2
      exact loop_length tr N _ e2.symm h3 (fun q hq => pick_length (h1 q hq)) hp
    · cases ht

/-- The wrapper graph means the operation. -/
theorem wrapper_ev {o : Simp.Op V T} {Γ Δ : List (Ty T)} (ht : opTy false o Γ = some Δ) {σ ρ a : Nat → List (LV V)}
    (h : Ev tr N (.op o) σ ρ) (ha : ∀ p, p < N → pick (σ p) (inputs o) = some (a p)) : Ev tr N (.region (wrapper o)) a ρ := by
  have hlen : ∀ p, p < N → (ρ p).length = numOuts o := fun p hp => op_length tr N ht h hp
  have hal : ∀ p, p < N → (a p).length = (inputs o).length := fun p hp => pick_length (ha p hp)
  have key : Ev tr N (.op (renumber o)) a ρ := by
    cases h with
    | pcall parties F outs args _ _ a' h1 h2 h3 =>
      have e : ∀ p, p < N → a' p = a p := fun p hp => Option.some.inj ((h1 p hp).symm.trans (ha p hp))
      refine .pcall _ _ _ _ _ _ a (fun p hp => ?_) (fun p hp hm => e p hp ▸ h2 p hp hm) h3
      rw [show args.length = (a p).length from (hal p hp).symm]; exact pick_range' _
    | pcallDyn F outs args _ _ a' h1 h2 =>
      have e : ∀ p, p < N → a' p = a p := fun p hp => Option.some.inj ((h1 p hp).symm.trans (ha p hp))
      refine .pcallDyn _ _ _ _ _ a (fun p hp => ?_) (fun p hp => e p hp ▸ h2 p hp)
      rw [show args.length = (a p).length from (hal p hp).symm]; exact pick_range' _
    | shuffle routing arg _ _ d h1 h2 h3 h4 =>
      refine .shuffle _ _ _ _ d h1 h2 (fun p hp => ?_) h4
      have := ha p hp
      simp only [inputs, pick, h3 p hp] at this
      rw [← Option.some.inj this]; rfl
    | converge args _ _ a' h1 h2 =>
      have e : ∀ p, p < N → a' p = a p := fun p hp => Option.some.inj ((h1 p hp).symm.trans (ha p hp))
      refine .converge _ _ _ a (fun p hp => ?_) (fun p hp => e p hp ▸ h2 p hp)
      rw [show args.length = (a p).length from (hal p hp).symm]; exact pick_range' _
    | cond verify pred args thn els _ _ a' v b h1 h2 h3 h4 =>
      have e : ∀ p, p < N → a p = v p :: a' p := fun p hp => by
        have := ha p hp
        simp only [inputs, pick, h1 p hp, h3 p hp] at this
        exact (Option.some.inj this).symm
      refine .cond _ _ _ _ _ _ _ a' v b (fun p hp => ?_) h2 (fun p hp => ?_) h4
      · rw [e p hp]; rfl
      · rw [e p hp, ← pick_length (h3 p hp)]
        have := pick_range (a' p) [v p] []
        simpa using this
    | loopOp state caps c b _ _ st cs h1 h2 h3 =>
      have e : ∀ p, p < N → a p = st p ++ cs p := fun p hp => by
        obtain ⟨x, y, hx, hy, e⟩ := pick_append (ha p hp)
        rw [h1 p hp] at hx; rw [h2 p hp] at hy
        rw [e, Option.some.inj hx, Option.some.inj hy]
      refine .loopOp _ _ _ _ _ _ st cs (fun p hp => ?_) (fun p hp => ?_) h3
      · rw [e p hp, ← pick_length (h1 p hp)]
        have := pick_range (st p) [] (cs p)
        simpa using this
      · rw [e p hp, ← pick_length (h1 p hp), ← pick_length (h2 p hp)]
        have := pick_range (cs p) (st p) []
        simpa using this
  refine .region _ _ _ (fun p => a p ++ ρ p) _ (.cons _ _ _ ρ _ key (.nil _)) fun p hp => ?_
  rw [← hlen p hp, ← hal p hp]
  have := pick_range (ρ p) (a p) []
  simpa using this

/-- `program_correct`, with the mailboxes empty again at the end. -/
theorem request_correct (r : Region V T) (σ ρ : Nat → List (LV V)) (h : Ev tr N (.region r) σ ρ) :
    ∃ f0, ∀ f, f0 ≤ f → ∃ t, Always N (syncSt (fun p => regionRun tr N f p r (σ p)) (fun _ _ => 0)) t ∧
      (∀ p, p < N → t.proc p = .ret (ρ p)) ∧ t.slot = fun _ => .empty := by
  obtain ⟨f0, hs⟩ := ev_sim (List (LV V)) tr N _ σ ρ h
  refine ⟨f0, fun f hf => ?_⟩
  obtain ⟨c', _, hr⟩ := hs f f hf hf (fun _ x => .ret x) (fun p => regionRun tr N f p r (σ p)) (fun p _ => (bind_ret _).symm)
    (fun _ _ => 0) (fun _ _ => rfl)
  refine ⟨_, always_of_reach (wf_sync _ _) hr (terminal_sync _ _ (fun p hp => ?_)), fun p hp => ?_, rfl⟩
  · simp only [next, hp, if_true]; exact .inl ⟨_, rfl⟩
  · simp [syncSt, next, hp]

end

/-! ### The property -/

theorem pick_total {α : Type} (d : α) (env : List α) (is : List Nat) (h : ∀ i ∈ is, i < env.length) : pick env is = some (is.map fun i => env.getD i d) := by
  induction is with
  | nil => rfl
  | cons i is ih =>
    have hi := h i (by simp)
    rw [pick, ih (fun j hj => h j (by simp [hj])), List.getElem?_eq_getElem hi]
    simp [List.getD, hi]

theorem pick_lt {α : Type} {env : List α} {is : List Nat} {r : List α} (h : pick env is = some r) : ∀ i ∈ is, i < env.length := by
  induction is generalizing r with
  | nil => simp
  | cons i is ih =>
    simp only [pick] at h
    split at h
    · next x xs h1 h2 =>
      intro j hj
      rcases List.mem_cons.1 hj with rfl | hj
      · exact (List.getElem?_eq_some_iff.1 h1).1
      · exact ih h2 j hj
    · cases h

/-- An operation that has a meaning reads existing variables. -/
theorem ev_inputs (tr : V → Bool) (N : Nat) {o : Simp.Op V T} {σ ρ : Nat → List (LV V)} (h : Ev tr N (.op o) σ ρ) {p : Nat} (hp : p < N) :
    ∀ i ∈ inputs o, i < (σ p).length := by
  cases h with
  | pcall parties F outs args _ _ a h1 h2 h3 => exact pick_lt (h1 p hp)
  | pcallDyn F outs args _ _ a h1 h2 => exact pick_lt (h1 p hp)
  | shuffle routing arg _ _ d h1 h2 h3 h4 =>
    intro i hi
    simp only [inputs, List.mem_singleton] at hi
    subst hi
    exact (List.getElem?_eq_some_iff.1 (h3 p hp)).1
  | converge args _ _ a h1 h2 => exact pick_lt (h1 p hp)
  | cond verify pred args thn els _ _ a v b h1 h2 h3 h4 =>
    intro i hi
    rcases List.mem_cons.1 hi with rfl | hi
    · exact (List.getElem?_eq_some_iff.1 (h1 p hp)).1
    · exact pick_lt (h3 p hp) i hi
  | loopOp state caps c b _ _ st cs h1 h2 h3 =>
    intro i hi
    rcases List.mem_append.1 hi with hi | hi
    · exact pick_lt (h1 p hp) i hi
    · exact pick_lt (h2 p hp) i hi

/-- The top-level operations of a traced program. -/
def opsOf : List (Simp.Op V T) → Ops V T
  | [] => .nil
  | o :: os => .cons o (opsOf os)

/-- **C105** A traced program whose operations are accepted by the type rules, run operation by operation through the driver on
`N` workers: whatever the schedule of workers and messages, every operation ends on every worker, and what `mp.fetch` brings back of
the variables is exactly what the specification of multi-party programs gives the parties — arguments, results of all operations in
order, `None` where a party holds nothing. -/
theorem spmd_end_to_end [DecidableEq T] (tr : V → Bool) (N : Nat) (hN : 0 < N) (os : List (Simp.Op V T)) (Γ Δ : List (Ty T)) (ht : opsTy false (opsOf os) Γ = some Δ)
    (σ σ' : Nat → List (LV V)) (h : Ev tr N (.ops (opsOf os)) σ σ')
    (stores : List (Store V)) (env : List DriverVar) (hst : stores.length = N) (hval : ∀ x ∈ env, Valid stores x)
    (hσ : ∀ p, p < N → local_ stores env p = σ p) :
    ∃ f0, ∀ fuel, f0 ≤ fuel → Completes tr N fuel os stores env (fun _ => .empty)
      (fun stores' env' => stores'.length = N ∧ (∀ x ∈ env', Valid stores' x) ∧ ∀ p, p < N → local_ stores' env' p = σ' p) := by
  induction os generalizing Γ σ stores env with
  | nil =>
    cases h
    exact ⟨0, fun _ _ => .done ⟨hst, hval, hσ⟩⟩
  | cons o os ih =>
    simp only [opsOf] at h ht
    cases h with
    | cons _ _ _ r _ h1 h2 =>
    simp only [opsTy, Option.bind_eq_some_iff] at ht
    obtain ⟨ts, ht1, ht2⟩ := ht
    have hin : ∀ i ∈ inputs o, i < env.length := by
      intro i hi
      have := ev_inputs tr N h1 hN i hi
      rw [← hσ 0 hN] at this
      simpa [local_] using this
    have hargs : ∀ a ∈ argVars o env, Valid stores a := by
      intro a ha
      simp only [argVars, List.mem_map] at ha
      obtain ⟨i, hi, rfl⟩ := ha
      have := hin i hi
      rw [List.getD_eq_getElem?_getD, List.getElem?_eq_getElem this]
      exact hval _ (List.getElem_mem this)
    have hgiven : given (E := Unit) (allInputs stores (argVars o env)) = (List.range N).map (inputsOf ((argVars o env).map (fetch stores))) := by
      rw [allInputs_ok stores _ hargs, given_ok, hst]
    have hpick : ∀ p, p < N → pick (σ p) (inputs o) = some ((given (E := Unit) (allInputs stores (argVars o env))).getD p []) := by
      intro p hp
      rw [hgiven, ← hσ p hp, pick_total none _ _ (fun i hi => by simpa [local_] using hin i hi)]
      congr 1
      rw [List.getD_eq_getElem?_getD, List.getElem?_map, List.getElem?_range hp]
      simp only [Option.map_some, Option.getD_some, inputsOf, argVars, List.map_map]
      refine List.map_congr_left fun i hi => ?_
      have := hin i hi
      simp [local_, List.getD_eq_getElem?_getD, List.getElem?_eq_getElem this]
    obtain ⟨f1, hf1⟩ := request_correct tr N (wrapper o) (fun p => (given (E := Unit) (allInputs stores (argVars o env))).getD p []) r
      (wrapper_ev tr N ht1 h1 hpick)
    -- what the driver collects does not depend on the fuel
    let op : Driver.Op V Unit := ⟨inputs o, numOuts o, fun _ => (List.range N).map fun p => .ok (r p)⟩
    have hop : op.WF stores.length := by
      intro ins _
      refine ⟨by simp [op, hst], ?_⟩
      intro x hx rs hrs
      simp only [op, List.mem_map, List.mem_range] at hx
      obtain ⟨p, hp, rfl⟩ := hx
      cases hrs
      exact op_length tr N ht1 h1 hp
    have hallok : ∀ l : List Nat, allOk (l.map fun p => (.ok (r p) : Except Unit (List (Option V)))) = .ok (l.map r) := by
      intro l
      induction l with
      | nil => rfl
      | cons x l ih => simp [allOk, ih, Except.map]
    obtain ⟨hg, hok, _⟩ := dispatch_correct stores op (argVars o env) hop hargs
    obtain ⟨outs, ho1, ho2, ho3⟩ := hok _ (hallok _)
    set D := dispatch op.body op.numOutputs stores (argVars o env) with hD
    have hst' : D.1.length = N := by rw [hg.length, hst]
    have hloc : ∀ p, p < N → local_ D.1 (env ++ outs) p = σ p ++ r p := by
      intro p hp
      have e1 : local_ D.1 env p = σ p := by
        rw [← hσ p hp]
        exact List.map_congr_left fun x hx => by rw [((hval x hx).grow hg).2]
      have e2 : local_ D.1 outs p = r p := by
        have : local_ D.1 outs p = (outs.map (fetch D.1)).map fun v => (v[p]?).join := by simp [local_]
        rw [this, ho3]
        have hl : (r p).length = op.numOutputs := op_length tr N ht1 h1 hp
        apply List.ext_getElem
        · simp [vectors, hl]
        · intro j h3 h4
          simp only [vectors, List.getElem_map, List.getElem_range, List.map_map, List.getElem?_map, List.getElem?_range hp, Option.map_some, Function.comp]
          rw [List.getElem?_eq_getElem h4]; rfl
      rw [local_, List.map_append]
      exact congrArg₂ (· ++ ·) e1 e2
    obtain ⟨f2, hf2⟩ := ih (Γ ++ ts) ht2 _ h2 D.1 (env ++ outs) hst'
      (fun x hx => by
        rcases List.mem_append.1 hx with hx | hx
        · exact ((hval x hx).grow hg).1
        · exact ho2 x hx) hloc
    refine ⟨max f1 f2, fun fuel hf => ?_⟩
    obtain ⟨t, ha, hb, hc⟩ := hf1 fuel (by omega)
    refine .op t r D.1 outs ha hb ?_ (hc ▸ hf2 fuel (by omega))
    rw [← ho1]

/-- Two parties hold 10 and 20 in their stores; both add one, then party 1 gets party 0's result: fetched back are 11 and 21, then
nothing and 11. -/
example : ∃ f0, ∀ fuel, f0 ≤ fuel → Completes (V := Nat) (T := Unit) (fun _ => true) 2 fuel [.pcall [0, 1] addOne [()] [0], .shuffle [(1, 0)] 1]
    [[10], [20]] [[some 0, some 0]] (fun _ => .empty)
    (fun stores' env' => stores'.length = 2 ∧ (∀ x ∈ env', Valid stores' x) ∧ ∀ p, p < 2 → local_ stores' env' p =
      [some (10 * (p + 1)), some (10 * (p + 1) + 1), if p = 1 then some 11 else none]) := by
  refine spmd_end_to_end _ 2 (by decide) _ [⟨(), some [0, 1]⟩] [⟨(), some [0, 1]⟩, ⟨(), some [0, 1]⟩, ⟨(), some [1]⟩] rfl (fun p => [some (10 * (p + 1))]) _ ?_ _ _ rfl ?_ ?_
  · refine .cons _ _ _ (fun p => [some (10 * (p + 1) + 1)]) _
      (.pcall _ _ _ _ _ _ (fun p => [some (10 * (p + 1))]) (fun p _ => rfl) (fun p _ _ => ⟨rfl, rfl⟩) (fun p hp hm => ?_)) ?_
    · simp at hm; omega
    refine .cons _ _ _ (fun p => [if p = 1 then some 11 else none]) _
      (.shuffle _ _ _ _ (fun p => some (10 * (p + 1) + 1)) ⟨by decide, by decide⟩ ?_ (fun p _ => rfl) ?_) (.nil _)
    · rintro a b ⟨h1, h2, h3⟩; simp at h2 h3; omega
    · intro p hp
      have : p = 0 ∨ p = 1 := by omega
      rcases this with rfl | rfl <;> rfl
  · intro x hx
    simp only [List.mem_singleton] at hx
    subst hx
    refine ⟨rfl, fun i u st h1 h2 => ?_⟩
    rcases i with _ | _ | i
    · simp at h1 h2; subst h1; subst h2; decide
    · simp at h1 h2; subst h1; subst h2; decide
    · simp at h1
  · intro p hp
    have : p = 0 ∨ p = 1 := by omega
    rcases this with rfl | rfl <;> rfl

end Verif.Driver.Spmd
