import Verif.Driver.Spmd
import Verif.Simp.Chor
/-!
# C118 — multi-party programs called from the driver

A protocol such as `psi_intersect` is a python function.  Called inside a traced function it becomes part of one graph that every
party evaluates (C111).  Called directly from the driver, the interpreter executes every `pcall`, `shuffle` and `converge` at once, as a
request of its own (interpreter.py, C11; backends/simp_driver/ops.py), and its results stay in the workers' stores.  Both must give the
same.
-/
namespace Verif.Driver.Spmd
open Verif.Comm Verif.Simp Verif.Driver

variable {V T : Type}

/-- **Specification.**  The operations `ops`, each dispatched to `N` workers as a request of its own, on inputs held as in `ls`
(whatever else the stores contain): every schedule of workers and messages comes to the end of every operation, and then `mp.fetch` of
object `x` gives, for every party, its value if `S'` says that the party holds it, and `None` otherwise. -/
def FromDriver (tr : V → Bool) (N : Nat) (ops : List (Simp.Op V T)) (ls : List (Loc V T)) (S' : Plain V T) : Prop :=
  ∀ (stores : List (Store V)) (env : List DriverVar), 0 < N → stores.length = N → (∀ x ∈ env, Valid stores x) →
    (env.map (fetch stores) = ls.map fun l => (List.range N).map fun p => if p ∈ l.at_ then some l.val else none) →
    ∃ f0, ∀ fuel, f0 ≤ fuel → Completes tr N fuel ops stores env (fun _ => .empty) fun stores' env' =>
      env'.map (fetch stores') = S'.vals.map fun l => (List.range N).map fun p => if p ∈ l.at_ then some l.val else none

/-! ### Proof -/

theorem opsOf_eq (os : List (Simp.Op V T)) : opsOf os = toOps os := by
  induction os with
  | nil => rfl
  | cons o os ih => rw [opsOf, toOps, ih]

theorem opsTy_snoc [DecidableEq T] (os : List (Simp.Op V T)) (o : Simp.Op V T) (Γ : List (Ty T)) :
    opsTy false (toOps (os ++ [o])) Γ = (opsTy false (toOps os) Γ).bind fun Δ => (opTy false o Δ).map (Δ ++ ·) := by
  induction os generalizing Γ with
  | nil =>
    simp only [List.nil_append, toOps, opsTy, Option.bind_some]
    cases opTy false o Γ <;> rfl
  | cons a os ih =>
    simp only [List.cons_append, toOps, opsTy]
    cases opTy false a Γ with
    | none => rfl
    | some r => exact ih _

/-- the recorded operations have the recorded types -/
def Typed [DecidableEq T] (Γ : List (Ty T)) (b : Bld V T) : Prop := opsTy false (toOps b.ops) Γ = some b.tys

theorem emit_typed [DecidableEq T] {Γ : List (Ty T)} {o : Simp.Op V T} {b : Bld V T} {q : List Nat × Bld V T} (h : Typed Γ b) (he : emit o b = some q) :
    Typed Γ q.2 := by
  unfold emit at he
  cases ht : opTy false o b.tys with
  | none => rw [ht] at he; cases he
  | some ts =>
    rw [ht] at he
    cases he
    unfold Typed at h ⊢
    rw [opsTy_snoc, h, Option.bind_some, ht]
    rfl

theorem single_typed [DecidableEq T] {Γ : List (Ty T)} {o : Simp.Op V T} {b : Bld V T} {q : Nat × Bld V T} (h : Typed Γ b) (he : single (emit o b) = some q) :
    Typed Γ q.2 := by
  unfold single at he
  rw [Option.bind_eq_some_iff] at he
  obtain ⟨r, hr, he⟩ := he
  rw [Option.map_eq_some_iff] at he
  obtain ⟨y, _, rfl⟩ := he
  exact emit_typed h hr

theorem trace_typed [DecidableEq T] {α : Type} {Γ : List (Ty T)} (c : Chor V T α) : ∀ {b : Bld V T} {q : α × Bld V T}, Typed Γ b →
    c.trace b = some q → Typed Γ q.2 := by
  induction c with
  | ret a => intro b q h hq; cases hq; exact h
  | fail => intro b q h hq; cases hq
  | call ps F outs args k ih =>
    intro b q h hq
    simp only [Chor.trace, Option.bind_eq_some_iff] at hq
    obtain ⟨r, hr, hq⟩ := hq
    exact ih _ (emit_typed h hr) hq
  | shuffle r x k ih =>
    intro b q h hq
    simp only [Chor.trace, Option.bind_eq_some_iff] at hq
    obtain ⟨r, hr, hq⟩ := hq
    exact ih _ (single_typed h hr) hq
  | converge xs k ih =>
    intro b q h hq
    simp only [Chor.trace, Option.bind_eq_some_iff] at hq
    obtain ⟨r, hr, hq⟩ := hq
    exact ih _ (single_typed h hr) hq

/-- what the parties hold, read from the fetched vectors -/
theorem local_of_fetch {N : Nat} {stores : List (Store V)} {env : List DriverVar} {ls : List (Loc V T)}
    (h : env.map (fetch stores) = ls.map fun l => (List.range N).map fun p => if p ∈ l.at_ then some l.val else none) {p : Nat} (hp : p < N) :
    local_ stores env p = localOf ls p := by
  have e : local_ stores env p = (env.map (fetch stores)).map fun v => (v[p]?).join := by simp [local_]
  rw [e, h, List.map_map]
  refine List.map_congr_left fun l _ => ?_
  simp [List.getElem?_range hp]

theorem fetch_of_local {N : Nat} {stores : List (Store V)} {env : List DriverVar} {ls : List (Loc V T)} (hst : stores.length = N)
    (hv : ∀ x ∈ env, Valid stores x) (hlen : env.length = ls.length) (h : ∀ p, p < N → local_ stores env p = localOf ls p) :
    env.map (fetch stores) = ls.map fun l => (List.range N).map fun p => if p ∈ l.at_ then some l.val else none := by
  apply List.ext_getElem
  · simp [hlen]
  · intro i h1 h2
    simp only [List.length_map] at h1 h2
    simp only [List.getElem_map]
    have hl := (hv _ (List.getElem_mem h1)).1
    have hfl : (fetch stores env[i]).length = N := by simp [fetch, hl, hst]
    apply List.ext_getElem
    · simp [hfl]
    · intro p h3 h4
      rw [hfl] at h3
      have e := h p h3
      have e1 : (local_ stores env p)[i]? = (localOf ls p)[i]? := by rw [e]
      simp only [local_, localOf, List.getElem?_map, List.getElem?_eq_getElem h1, List.getElem?_eq_getElem h2, Option.map_some, Option.some.injEq] at e1
      rw [List.getElem?_eq_getElem (by rw [hfl]; exact h3)] at e1
      simpa using e1

theorem completes_mono {tr : V → Bool} {N fuel : Nat} {os : List (Simp.Op V T)} {stores : List (Store V)} {env : List DriverVar}
    {slots : Key → Slot (SMsg V)} {P Q : List (Store V) → List DriverVar → Prop} (hpq : ∀ s e, P s e → Q s e)
    (h : Completes tr N fuel os stores env slots P) : Completes tr N fuel os stores env slots Q := by
  induction h with
  | done h => exact .done (hpq _ _ h)
  | op t rs st outs h1 h2 h3 _ ih => exact .op t rs st outs h1 h2 h3 (ih hpq)

/-- **C118, a program called from the driver computes the plain reading.**  If the plain reading of a program on the inputs `ls` ends
with `S'`, then its operations, dispatched one by one, leave in the workers' stores exactly what the plain reading says every party holds. -/
theorem driver_plain_reading [DecidableEq T] (tr : V → Bool) {N : Nat} {α : Type} {c : Chor V T α} {ls : List (Loc V T)} {S' : Plain V T} {a : α}
    (hr : Runs N c ⟨ls, []⟩ a S') : ∃ b', c.trace (Simp.start ls) = some (a, b') ∧ FromDriver tr N b'.ops ls S' := by
  obtain ⟨b', σ', h1, h2, h3, _⟩ := trace_agrees tr hr (agrees_start N ls [])
  refine ⟨b', h1, fun stores env hN hst hv hin => ?_⟩
  have hrun := h2.run (localOf ls) ⟨.nil _, (agrees_start N ls []).lens⟩
  have hty : Typed (Simp.start ls).tys b' := trace_typed c (b := Simp.start ls) rfl h1
  have hσ : ∀ p, p < N → σ' p = localOf S'.vals p := by
    intro p hp
    apply List.ext_getElem?
    intro i
    by_cases hi : i < S'.vals.length
    · rw [(h3.held i _ (List.getElem?_eq_getElem hi)).val p hp]
      simp [localOf, hi]
    · rw [List.getElem?_eq_none (by rw [h3.lens p hp, ← h3.len]; omega), List.getElem?_eq_none (by simp [localOf]; omega)]
  obtain ⟨f0, hf⟩ := spmd_end_to_end tr N hN b'.ops (Simp.start ls).tys b'.tys (by rw [opsOf_eq]; exact hty) (localOf ls) σ' (by rw [opsOf_eq]; exact hrun.ev)
    stores env hst hv (fun p hp => local_of_fetch hin hp)
  refine ⟨f0, fun fuel hfu => ?_⟩
  have := hf fuel hfu
  refine completes_mono ?_ this
  rintro st en ⟨e1, e2, e3⟩
  refine fetch_of_local e1 e2 ?_ fun p hp => (e3 p hp).trans (hσ p hp)
  have e4 := congrArg List.length (e3 0 hN)
  rw [hσ 0 hN] at e4
  simpa [local_, localOf] using e4

/-- add up at party 0, hand the sum to party 1 -/
def sample : Chor Nat Unit Nat := .call [0] (fun l => some [l.sum + 1]) [()] [0] fun ys => .shuffle [(1, 0)] (ys.headD 0) fun y => .ret y

/-- Party 0 of two has 10 in its store (behind an older value); after the two requests the driver fetches `[10, None]`, `[11, None]`
and `[None, 11]`. -/
example : ∃ b', sample.trace (Simp.start [⟨(), [0], 10⟩]) = some (2, b') ∧ ∃ f0, ∀ fuel, f0 ≤ fuel →
    Completes (fun _ => true) 2 fuel b'.ops [[7, 10], []] [[some 1, none]] (fun _ => .empty) fun stores' env' =>
      env'.map (fetch stores') = [[some 10, none], [some 11, none], [none, some 11]] := by
  have hr : Runs 2 sample ⟨[⟨(), [0], 10⟩], []⟩ 2 ⟨[⟨(), [0], 10⟩, ⟨(), [0], 11⟩, ⟨(), [1], 11⟩], [(0, 1, 1)]⟩ := by
    refine .call [⟨(), [0], 10⟩] [11] (.cons rfl .nil) (by simp) rfl rfl (.shuffle ⟨(), [0], 11⟩ rfl ⟨by decide, by decide⟩ ?_ (by simp) (by simp) (.ret _ _))
    rintro a b ⟨h1, h2, h3⟩; simp at h2 h3; omega
  obtain ⟨b', h1, h2⟩ := driver_plain_reading (fun _ => true) hr
  refine ⟨b', h1, h2 [[7, 10], []] [[some 1, none]] (by decide) rfl ?_ rfl⟩
  intro x hx
  simp only [List.mem_singleton] at hx
  subst hx
  refine ⟨rfl, fun i u st h1 h2 => ?_⟩
  rcases i with _ | _ | i
  · simp at h1 h2; subst h1; subst h2; decide
  · simp at h1
  · simp at h1

end Verif.Driver.Spmd
