import Verif.Simp.Types
/-!
# C16–C22 — property theorems for multi-party programs
-/
namespace Verif.Simp
open Verif.Comm

section
variable {V T : Type} [DecidableEq T]

theorem always_of_to {A : Type} {N : Nat} {P : Nat → Proc (SMsg V) A} {f : Nat → Proc (SMsg V) A} (c : Nat → Nat → Nat) (hc : Symm c)
    (h : To N P (next N P f)) (hf : ∀ p, p < N → (∃ a, f p = .ret a) ∨ f p = .fail) :
    ∃ t, Always N (syncSt P c) t ∧ ∀ p, p < N → t.proc p = f p := by
  obtain ⟨c', _, r⟩ := h c hc
  refine ⟨_, always_of_reach (wf_sync _ _) r (terminal_sync _ _ (fun p hp => ?_)), fun p hp => ?_⟩
  · simp only [next, hp, if_true]; exact hf p hp
  · simp [syncSt, next, hp]

/-- **C16–C22, runs** If the specification gives the parties the values `ρ`, then (with enough fuel for the loops) every
schedule of the parties and deliveries ends with party `p` returning `ρ p`; no party ever fails or blocks. -/
theorem program_correct (tr : V → Bool) (N : Nat) (r : Region V T) (σ ρ : Nat → List (LV V)) (h : Ev tr N (.region r) σ ρ)
    (c : Nat → Nat → Nat) (hc : Symm c) :
    ∃ f0, ∀ f, f0 ≤ f → ∃ t, Always N (syncSt (fun p => regionRun tr N f p r (σ p)) c) t ∧ ∀ p, p < N → t.proc p = .ret (ρ p) := by
  obtain ⟨f0, hs⟩ := ev_sim (List (LV V)) tr N _ σ ρ h
  refine ⟨f0, fun f hf => ?_⟩
  exact always_of_to c hc (hs f f hf hf (fun _ x => .ret x) (fun p => regionRun tr N f p r (σ p)) (fun p _ => (bind_ret _).symm))
    (fun p _ => .inl ⟨_, rfl⟩)

/-! ## C16 -/

/-- **C16** (proved part: no value with dynamic party set is given to a static call or a shuffle) Every accepted program,
run on inputs that are held exactly by the parties of their types, gives results held exactly by the parties of their types,
in every schedule.  Missing: dynamic values passed to static calls, see `party_types_violated`. -/
theorem party_types_sound_partial (tr : V → Bool) (N : Nat) (r : Region V T) (Γ Δ : List (Ty T)) (σ ρ : Nat → List (LV V))
    (ht : regionTy true r Γ = some Δ) (hF : regionTotal r) (hσ : HoldsAll N Γ σ) (h : Ev tr N (.region r) σ ρ)
    (c : Nat → Nat → Nat) (hc : Symm c) :
    ∃ f0, ∀ f, f0 ≤ f → ∃ t, Always N (syncSt (fun p => regionRun tr N f p r (σ p)) c) t ∧
      ∀ p, p < N → ∃ vs, t.proc p = .ret vs ∧ List.Forall₂ (fun t v => Holds t p v) Δ vs := by
  obtain ⟨f0, hs⟩ := program_correct tr N r σ ρ h c hc
  have := ev_typed tr N _ σ ρ h Γ Δ ⟨ht, hF⟩ hσ
  refine ⟨f0, fun f hf => ?_⟩
  obtain ⟨t, h1, h2⟩ := hs f hf
  exact ⟨t, h1, fun p hp => ⟨ρ p, h2 p hp, this p hp⟩⟩

/-- the `strict` rule only accepts more restrictively: what it accepts the code accepts, with the same types -/
theorem strict_accepts : (∀ (o : Op V T) Γ Δ, opTy true o Γ = some Δ → opTy false o Γ = some Δ) ∧
    (∀ (r : Region V T) Γ Δ, regionTy true r Γ = some Δ → regionTy false r Γ = some Δ) ∧
    (∀ (os : Ops V T) Γ Δ, opsTy true os Γ = some Δ → opsTy false os Γ = some Δ) := by
  have main : (∀ (o : Op V T), ∀ Γ Δ, opTy true o Γ = some Δ → opTy false o Γ = some Δ) := by
    intro o
    refine Op.rec (V := V) (T := T) (motive_1 := fun o => ∀ Γ Δ, opTy true o Γ = some Δ → opTy false o Γ = some Δ)
      (motive_2 := fun r => ∀ Γ Δ, regionTy true r Γ = some Δ → regionTy false r Γ = some Δ)
      (motive_3 := fun os => ∀ Γ Δ, opsTy true os Γ = some Δ → opsTy false os Γ = some Δ) ?_ ?_ ?_ ?_ ?_ ?_ ?_ ?_ ?_ o
    · intro parties F outs args Γ Δ h
      simp only [opTy, Option.bind_eq_some_iff] at h ⊢
      obtain ⟨ts, h1, h2⟩ := h
      refine ⟨ts, h1, ?_⟩
      split at h2
      · rename_i hc
        simp only [Bool.not_true, Bool.false_or, Bool.and_eq_true] at hc
        simpa [hc.1] using h2
      · simp at h2
    · intro F outs args Γ Δ h; simpa only [opTy] using h
    · intro routing arg Γ Δ h
      simp only [opTy, Option.bind_eq_some_iff] at h ⊢
      obtain ⟨ts, h1, h2⟩ := h
      refine ⟨ts, h1, ?_⟩
      split at h2
      · rename_i hc
        simp only [Bool.not_true, Bool.false_or, Bool.and_eq_true] at hc
        simpa [hc.1] using h2
      · simp at h2
    · intro args Γ Δ h; simpa only [opTy] using h
    · intro verify pred args thn els ih1 ih2 Γ Δ h
      simp only [opTy, Option.bind_eq_some_iff] at h ⊢
      obtain ⟨x, h1, ts, h2, a, h3, b, h4, h5⟩ := h
      exact ⟨x, h1, ts, h2, a, ih1 _ _ h3, b, ih2 _ _ h4, h5⟩
    · intro st cs c b ih1 ih2 Γ Δ h
      simp only [opTy, Option.bind_eq_some_iff] at h ⊢
      obtain ⟨ts, h1, us, h2, a, h3, b, h4, h5⟩ := h
      exact ⟨ts, h1, us, h2, a, ih1 _ _ h3, b, ih2 _ _ h4, h5⟩
    · intro os outs ih Γ Δ h
      simp only [regionTy, Option.bind_eq_some_iff] at h ⊢
      obtain ⟨x, h1, h2⟩ := h
      exact ⟨x, ih _ _ h1, h2⟩
    · intro Γ Δ h; simpa only [opsTy] using h
    · intro o os ih1 ih2 Γ Δ h
      simp only [opsTy, Option.bind_eq_some_iff] at h ⊢
      obtain ⟨x, h1, h2⟩ := h
      exact ⟨x, ih1 _ _ h1, ih2 _ _ h2⟩
  have hos : ∀ (os : Ops V T) Γ Δ, opsTy true os Γ = some Δ → opsTy false os Γ = some Δ := by
    intro os
    refine Ops.rec (motive_1 := fun _ => True) (motive_2 := fun _ => True)
      (motive_3 := fun os => ∀ Γ Δ, opsTy true os Γ = some Δ → opsTy false os Γ = some Δ)
      (fun _ _ _ _ => trivial) (fun _ _ _ => trivial) (fun _ _ => trivial) (fun _ => trivial) (fun _ _ _ _ _ _ _ => trivial)
      (fun _ _ _ _ _ _ => trivial) (fun _ _ _ => trivial) ?_ ?_ os
    · intro Γ Δ h; simpa only [opsTy] using h
    · intro o os _ ih Γ Δ h
      simp only [opsTy, Option.bind_eq_some_iff] at h ⊢
      obtain ⟨x, h1, h2⟩ := h
      exact ⟨x, main _ _ _ h1, ih _ _ h2⟩
  refine ⟨main, ?_, hos⟩
  intro r Γ Δ h
  cases r with
  | mk os outs =>
    simp only [regionTy, Option.bind_eq_some_iff] at h ⊢
    obtain ⟨x, h1, h2⟩ := h
    exact ⟨x, hos _ _ _ h1, h2⟩

/-- straight-line programs: static calls of functions that succeed on present arguments, shuffles without exchanges,
converges -/
def opSafe (N : Nat) : Op V T → Prop
  | .pcall parties F outs _ => ∀ p ∈ parties, ∀ a, (∀ x ∈ a, x.isSome) → ∃ r, F p a = some r ∧ r.length = outs.length ∧ ∀ x ∈ r, x.isSome
  | .shuffle routing _ => Routing N routing ∧ ∀ a b, ¬ Swap routing a b
  | .converge _ => True
  | _ => False

/-- a list of safe operations -/
def opsSafe (N : Nat) : Ops V T → Prop
  | .nil => True
  | .cons o os => opSafe N o ∧ opsSafe N os

theorem pick_total {α β : Type} {R : α → β → Prop} {l : List α} {m : List β} (h : List.Forall₂ R l m) (is : List Nat) {a : List α}
    (ha : pick l is = some a) : ∃ b, pick m is = some b := by
  induction is generalizing a with
  | nil => exact ⟨[], rfl⟩
  | cons i is ih =>
    simp only [pick] at ha
    cases h1 : l[i]? with
    | none => simp [h1] at ha
    | some x =>
      cases h2 : pick l is with
      | none => simp [h1, h2] at ha
      | some xs =>
        obtain ⟨b, hb⟩ := ih h2
        obtain ⟨hi, _⟩ := List.getElem?_eq_some_iff.mp h1
        have hi' : i < m.length := by rw [← h.length_eq]; exact hi
        exact ⟨m[i] :: b, by simp [pick, List.getElem?_eq_getElem hi', hb]⟩

theorem safe_op_ev (tr : V → Bool) (N : Nat) (o : Op V T) (Γ Δ : List (Ty T)) (σ : Nat → List (LV V)) (hs : opSafe N o)
    (ht : opTy true o Γ = some Δ) (hσ : HoldsAll N Γ σ) : ∃ ρ, Ev tr N (.op o) σ ρ ∧ HoldsAll N Δ ρ := by
  cases o with
  | pcall parties F outs args =>
    simp only [opTy, Option.bind_eq_some_iff] at ht
    obtain ⟨ts, hts, hc⟩ := ht
    split at hc
    · rename_i hcond
      simp only [Bool.not_true, Bool.false_or, Bool.and_eq_true] at hcond
      simp only [Option.some.injEq] at hc
      subst hc
      let a : Nat → List (LV V) := fun p => (pick (σ p) args).getD []
      have ha : ∀ p, p < N → pick (σ p) args = some (a p) := by
        intro p hp
        obtain ⟨b, hb⟩ := pick_total (hσ p hp) args hts
        simp [a, hb]
      have hsome : ∀ p, p < N → p ∈ parties → ∀ x ∈ a p, x.isSome := by
        intro p hp hm
        refine forall₂_known_some (pick_forall₂ (hσ p hp) args hts (ha p hp)) ?_
        intro t htm
        obtain ⟨ps, hps⟩ := Option.isSome_iff_exists.mp (List.all_eq_true.mp hcond.2 t htm)
        exact ⟨ps, hps, (pcallCheck_known parties ts hcond.2).mp hcond.1 p hm t htm ps hps⟩
      let ρ : Nat → List (LV V) := fun p => if p ∈ parties then (F p (a p)).getD [] else List.replicate outs.length none
      have hρ : ∀ p, p < N → p ∈ parties → F p (a p) = some (ρ p) ∧ (ρ p).length = outs.length ∧ ∀ x ∈ ρ p, x.isSome := by
        intro p hp hm
        obtain ⟨r, h1, h2, h3⟩ := hs p hm (a p) (hsome p hp hm)
        simp only [ρ, hm, if_true, h1, Option.getD_some]
        exact ⟨trivial, h2, h3⟩
      refine ⟨ρ, .pcall parties F outs args σ ρ a ha (fun p hp hm => ⟨(hρ p hp hm).1, (hρ p hp hm).2.1⟩)
        (fun p _ hm => by simp [ρ, hm]), ?_⟩
      intro p hp
      by_cases hm : p ∈ parties
      · exact holds_somes outs parties p hm _ (hρ p hp hm).2.1 (hρ p hp hm).2.2
      · have : ρ p = List.replicate outs.length none := by simp [ρ, hm]
        rw [this]
        exact holds_replicate N outs parties p hm
    · simp at hc
  | pcallDyn F outs args => exact absurd hs id
  | shuffle routing arg =>
    have ht' := ht
    simp only [opTy, Option.bind_eq_some_iff] at ht
    obtain ⟨t, hta, hc⟩ := ht
    let d : Nat → LV V := fun p => ((σ p)[arg]?).getD none
    have hd : ∀ p, p < N → (σ p)[arg]? = some (d p) := by
      intro p hp
      obtain ⟨hi, _⟩ := List.getElem?_eq_some_iff.mp hta
      have hi' : arg < (σ p).length := by rw [← (hσ p hp).length_eq]; exact hi
      simp [d, List.getElem?_eq_getElem hi']
    have hev : Ev tr N (.op (.shuffle routing arg : Op V T)) σ (fun p => [routed routing d p]) :=
      .shuffle routing arg σ _ d hs.1 hs.2 hd (fun p _ => rfl)
    exact ⟨_, hev, ev_typed tr N _ _ _ hev Γ Δ ⟨ht', trivial⟩ hσ⟩
  | converge args =>
    have ht' := ht
    simp only [opTy, Option.bind_eq_some_iff] at ht
    obtain ⟨ts, hts, hc⟩ := ht
    let a : Nat → List (LV V) := fun p => (pick (σ p) args).getD []
    have ha : ∀ p, p < N → pick (σ p) args = some (a p) := by
      intro p hp
      obtain ⟨b, hb⟩ := pick_total (hσ p hp) args hts
      simp [a, hb]
    have hev : Ev tr N (.op (.converge args : Op V T)) σ (fun p => [firstHeld (a p)]) := .converge args σ _ a ha (fun p _ => rfl)
    exact ⟨_, hev, ev_typed tr N _ _ _ hev Γ Δ ⟨ht', trivial⟩ hσ⟩
  | cond verify pred args thn els => exact absurd hs id
  | loop st cs c b => exact absurd hs id

theorem safe_ops_ev (tr : V → Bool) (N : Nat) (os : Ops V T) (Γ Δ : List (Ty T)) (σ : Nat → List (LV V)) (hs : opsSafe N os)
    (ht : opsTy true os Γ = some Δ) (hσ : HoldsAll N Γ σ) : ∃ ρ, Ev tr N (.ops os) σ ρ ∧ HoldsAll N Δ ρ := by
  match os with
  | .nil =>
    simp only [opsTy, Option.some.injEq] at ht
    subst ht
    exact ⟨σ, .nil σ, hσ⟩
  | .cons o os =>
    simp only [opsTy, Option.bind_eq_some_iff] at ht
    obtain ⟨R, h1, h2⟩ := ht
    obtain ⟨r, e1, hr⟩ := safe_op_ev tr N o Γ R σ hs.1 h1 hσ
    obtain ⟨ρ, e2, hρ⟩ := safe_ops_ev tr N os (Γ ++ R) Δ (fun p => σ p ++ r p) hs.2 h2
      (fun p hp => forall₂_append (hσ p hp) (hr p hp))
    exact ⟨ρ, .cons o os σ r ρ e1 e2, hρ⟩

/-- **C16** for straight-line programs, with nothing assumed about the run: every accepted program of static calls,
shuffles without exchanges and converges ends at every party in every schedule, and each result is held by exactly the
parties of its type. -/
theorem straight_line_sound_partial (tr : V → Bool) (N : Nat) (os : Ops V T) (outs : List Nat) (Γ Δ : List (Ty T)) (σ : Nat → List (LV V))
    (hs : opsSafe N os) (ht : regionTy true (.mk os outs) Γ = some Δ) (hσ : HoldsAll N Γ σ) (c : Nat → Nat → Nat) (hc : Symm c) :
    ∃ f0, ∀ f, f0 ≤ f → ∃ t, Always N (syncSt (fun p => regionRun tr N f p (.mk os outs) (σ p)) c) t ∧
      ∀ p, p < N → ∃ vs, t.proc p = .ret vs ∧ List.Forall₂ (fun t v => Holds t p v) Δ vs := by
  simp only [regionTy, Option.bind_eq_some_iff] at ht
  obtain ⟨Γ', h2, h3⟩ := ht
  obtain ⟨σ', e, hσ'⟩ := safe_ops_ev tr N os Γ Γ' σ hs h2 hσ
  let ρ : Nat → List (LV V) := fun p => (pick (σ' p) outs).getD []
  have hρ : ∀ p, p < N → pick (σ' p) outs = some (ρ p) := by
    intro p hp
    obtain ⟨b, hb⟩ := pick_total (hσ' p hp) outs h3
    simp [ρ, hb]
  obtain ⟨f0, h⟩ := program_correct tr N (.mk os outs) σ ρ (.region os outs σ σ' ρ e hρ) c hc
  refine ⟨f0, fun f hf => ?_⟩
  obtain ⟨t, h4, h5⟩ := h f hf
  exact ⟨t, h4, fun p hp => ⟨ρ p, h5 p hp, pick_forall₂ (hσ' p hp) outs h3 (hρ p hp)⟩⟩

/-- **C16 violated** A value with dynamic party set (here: held by party 1 only) is accepted as argument of a static call on
party 0; the result is typed as held by party 0, which holds nothing. -/
theorem party_types_violated : ∃ (r : Region Nat Unit) (Γ Δ : List (Ty Unit)) (σ ρ : Nat → List (LV Nat)),
    regionTy false r Γ = some Δ ∧ regionTotal r ∧ HoldsAll 2 Γ σ ∧ Ev (fun _ => true) 2 (.region r) σ ρ ∧ ¬ HoldsAll 2 Δ ρ := by
  refine ⟨.mk (.cons (.pcall [0] (fun _ a => some a) [()] [0]) .nil) [1], [⟨(), none⟩], [⟨(), some [0]⟩],
    fun p => if p = 1 then [some 5] else [none], fun _ => [none], rfl, ?_, ?_, ?_, ?_⟩
  · refine ⟨?_, trivial⟩
    intro p a r h1 h2
    cases h2
    exact h1
  · intro p _
    by_cases h : p = 1 <;> simp only [h, if_true, if_false] <;> exact .cons (fun ps hps => by simp at hps) .nil
  · refine .region _ _ _ (fun p => if p = 1 then [some 5, none] else [none, none]) _ ?_ ?_
    · refine .cons _ _ _ (fun _ => [none]) _ (.pcall [0] _ _ [0] _ _ (fun p => if p = 1 then [some 5] else [none]) ?_ ?_ ?_) ?_
      · intro p _
        by_cases h : p = 1 <;> simp [h, pick]
      · intro p _ hp
        simp only [List.mem_singleton] at hp
        subst hp
        exact ⟨rfl, rfl⟩
      · intro p _ _; rfl
      · have : (fun p => (if p = 1 then [some 5] else [none]) ++ [none]) = (fun p => if p = 1 then [some 5, none] else [none, none] : Nat → List (LV Nat)) := by
          funext p; split <;> rfl
        rw [this]
        exact .nil _
    · intro p _
      by_cases h : p = 1 <;> simp [h, pick]
  · intro h
    have := h 0 (by omega)
    cases this with
    | cons h _ => exact absurd ((h [0] rfl).mpr (by simp)) (by simp)

/-! ## C17 -/

/-- **C17** (acceptance) A static call is accepted exactly when every requested party is in the party set of every argument
(arguments with known party sets). -/
theorem pcall_accepted_iff (parties : List Nat) (F : Nat → List (LV V) → Option (List (LV V))) (outs : List T) (args : List Nat)
    (Γ ts : List (Ty T)) (hts : pick Γ args = some ts) (hk : ∀ t ∈ ts, t.parties ≠ none) :
    (opTy false (.pcall parties F outs args) Γ = some (outs.map (fun t => ⟨t, some parties⟩)) ↔
      ∀ p ∈ parties, ∀ t ∈ ts, ∃ ps, t.parties = some ps ∧ p ∈ ps) ∧
    (opTy false (.pcall parties F outs args) Γ = none ↔ ¬ ∀ p ∈ parties, ∀ t ∈ ts, ∃ ps, t.parties = some ps ∧ p ∈ ps) := by
  have hk' : ts.all known = true := List.all_eq_true.mpr (fun t ht => Option.isSome_iff_ne_none.mpr (hk t ht))
  have key : pcallCheck parties ts = true ↔ ∀ p ∈ parties, ∀ t ∈ ts, ∃ ps, t.parties = some ps ∧ p ∈ ps := by
    rw [pcallCheck_known parties ts hk']
    constructor
    · intro h p hp t ht
      obtain ⟨ps, hps⟩ := Option.ne_none_iff_exists'.mp (hk t ht)
      exact ⟨ps, hps, h p hp t ht ps hps⟩
    · intro h p hp t ht ps hps
      obtain ⟨qs, hqs, hm⟩ := h p hp t ht
      rw [hps] at hqs
      cases hqs
      exact hm
  rw [← key]
  simp only [opTy, hts, Option.bind_some, Bool.not_false, Bool.true_or, Bool.and_true]
  cases pcallCheck parties ts <;> simp

/-- **C17** (run) Each party in the set returns its function's result on its own arguments, all others return nothing, and
no message is involved: the outcome at `p` is a function of `p`'s own environment. -/
theorem pcall_runs_exactly (tr : V → Bool) (N f p : Nat) (parties : List Nat) (F : Nat → List (LV V) → Option (List (LV V))) (outs : List T)
    (args : List Nat) (env a : List (LV V)) (ha : pick env args = some a) :
    (p ∈ parties → ∀ r, F p a = some r → r.length = outs.length → opRun tr N f p (.pcall parties F outs args) env = .ret r) ∧
    (p ∈ parties → F p a = none → opRun tr N f p (.pcall parties F outs args) env = .fail) ∧
    (p ∉ parties → opRun tr N f p (.pcall parties F outs args) env = .ret (List.replicate outs.length none)) := by
  refine ⟨?_, ?_, ?_⟩
  · intro hp r h1 h2
    simp [opRun, ha, withArgs, hp, localCall, h1, h2]
  · intro hp h1
    simp [opRun, ha, withArgs, hp, localCall, h1]
  · intro hp
    simp [opRun, ha, withArgs, hp]

/-! ## C18 -/

/-- **C18** (proved part) A party that holds all inputs gets the function's result.  Missing: a party that misses an input
should get nothing; the implementation runs the function there too, see `pcall_dynamic_violated`. -/
theorem pcall_dynamic_partial (tr : V → Bool) (N f p : Nat) (F : Nat → List (LV V) → Option (List (LV V))) (outs : List T) (args : List Nat)
    (env a r : List (LV V)) (ha : pick env args = some a) (_hall : ∀ x ∈ a, x.isSome) (hr : F p a = some r) (hl : r.length = outs.length) :
    opRun tr N f p (.pcallDyn F outs args) env = .ret r := by
  simp [opRun, ha, withArgs, localCall, hr, hl]

/-- **C18 violated** A party whose input is absent runs the function anyway: it gets a value where the documentation says
`None`, and it fails where the function cannot handle `None`. -/
theorem pcall_dynamic_violated (tr : Nat → Bool) (N f p : Nat) :
    opRun tr N f p (.pcallDyn (T := Unit) (fun _ _ => some [some 7]) [()] [0]) [none] = .ret [some 7] ∧
    opRun tr N f p (.pcallDyn (T := Unit) (fun _ a => if a.all Option.isSome then some a else none) [()] [0]) [none] = .fail := by
  constructor <;> simp [opRun, pick, withArgs, localCall]

/-! ## C20 -/

/-- **C20** (acceptance) Rejected exactly for: no inputs, different value types, or known party sets that overlap. -/
theorem converge_rejected_iff (ts : List (Ty T)) :
    convergeTy ts = none ↔ ts = [] ∨ (∃ t ∈ ts, ∃ u ∈ ts, t.vt ≠ u.vt) ∨
      (∃ ps : List (List Nat), ts.map (·.parties) = ps.map some ∧ ¬ ps.Pairwise (fun a b => ∀ x ∈ a, x ∉ b)) := by
  cases ts with
  | nil => simp [convergeTy]
  | cons t rest =>
    have hv : (rest.all (fun u => decide (u.vt = t.vt)) = true) ↔ ¬ ∃ a ∈ t :: rest, ∃ b ∈ t :: rest, a.vt ≠ b.vt := by
      simp only [List.all_eq_true, decide_eq_true_eq, not_exists, not_and, not_not]
      constructor
      · intro h a ha b hb
        have e : ∀ x ∈ t :: rest, x.vt = t.vt := by
          intro x hx
          rcases List.mem_cons.mp hx with rfl | hx
          · rfl
          · exact h x hx
        rw [e a ha, e b hb]
      · intro h u hu
        exact h u (by simp [hu]) t (by simp)
    have hp : convergeParties (t :: rest) = none ↔ ∃ ps : List (List Nat), (t :: rest).map (·.parties) = ps.map some ∧ ¬ ps.Pairwise (fun a b => ∀ x ∈ a, x ∉ b) := by
      unfold convergeParties
      cases hk : knownSets (t :: rest) with
      | none =>
        simp only [reduceCtorEq, false_iff, not_exists, not_and]
        intro ps hps
        have : (t :: rest).all known = true := by
          rw [List.all_eq_true]
          intro x hx
          have : x.parties ∈ List.map (·.parties) (t :: rest) := List.mem_map.mpr ⟨x, hx, rfl⟩
          rw [hps] at this
          obtain ⟨q, _, hq⟩ := List.mem_map.mp this
          simp [known, ← hq]
        rw [knownSets_some _ this] at hk
        cases hk
      | some ps =>
        have hinv := knownSets_inv _ _ hk
        constructor
        · intro h
          refine ⟨ps, hinv, ?_⟩
          rw [← disjointB_iff]
          intro hd
          simp only [hd, if_true] at h
          split at h <;> simp at h
        · rintro ⟨qs, hqs, hn⟩
          have : ps = qs := by
            have := hinv.symm.trans hqs
            exact List.map_injective_iff.mpr (fun _ _ h => Option.some.inj h) this
          subst this
          rw [← disjointB_iff] at hn
          simp [hn]
    simp only [convergeTy, reduceCtorEq, false_or]
    by_cases h : rest.all (fun u => decide (u.vt = t.vt)) = true
    · rw [if_pos h, Option.map_eq_none_iff, hp]
      have := hv.mp h
      simp only [this, false_or]
    · rw [if_neg h]
      simp only [true_iff]
      exact .inl (by by_contra hc; exact h (hv.mpr hc))

theorem firstHeld_none {l : List (LV V)} (h : ∀ x ∈ l, x = none) : firstHeld l = none := by
  induction l with
  | nil => rfl
  | cons a l ih =>
    have := h a (by simp)
    subst this
    exact ih (fun x hx => h x (by simp [hx]))

theorem firstHeld_unique {l : List (LV V)} (i : Nat) (v : LV V) (hi : l[i]? = some v)
    (h : ∀ j w, l[j]? = some w → j ≠ i → w = none) : firstHeld l = v := by
  induction l generalizing i with
  | nil => simp at hi
  | cons a l ih =>
    cases i with
    | zero =>
      simp only [List.getElem?_cons_zero, Option.some.injEq] at hi
      subst hi
      cases a with
      | some x => rfl
      | none =>
        show firstHeld l = none
        exact firstHeld_none (fun x hx => by
          obtain ⟨j, hj, rfl⟩ := List.mem_iff_getElem.mp hx
          exact h (j + 1) _ (by simp [List.getElem?_eq_getElem hj]) (by omega))
    | succ i =>
      have ha := h 0 a (by simp) (by omega)
      subst ha
      exact ih i (by simpa using hi) (fun j w hj hne => h (j + 1) w (by simpa using hj) (by omega))

/-- **C20** (run) With known, accepted party sets: a party in the set of input `i` gets exactly the value it held in input
`i`; a party in no set gets nothing. -/
theorem converge_merges (ts : List (Ty T)) (t : Ty T) (ht : convergeTy ts = some t) (hk : ∀ u ∈ ts, u.parties ≠ none)
    (p : Nat) (a : List (LV V)) (h : List.Forall₂ (fun t v => Holds t p v) ts a)
    (tr : V → Bool) (N f : Nat) (args : List Nat) (env : List (LV V)) (ha : pick env args = some a) :
    (∀ (i : Nat) (u : Ty T) (ps : List Nat) (v : LV V), ts[i]? = some u → u.parties = some ps → p ∈ ps → a[i]? = some v →
      opRun (T := T) tr N f p (.converge args) env = .ret [v]) ∧
    ((∀ u ∈ ts, ∀ ps, u.parties = some ps → p ∉ ps) → opRun (T := T) tr N f p (.converge args) env = .ret [none]) := by
  have hrun : opRun (T := T) tr N f p (.converge args) env = .ret [firstHeld a] := by simp [opRun, ha, withArgs]
  have hnone : ∀ (j : Nat) (u : Ty T) (w : LV V), ts[j]? = some u → a[j]? = some w → (∀ ps, u.parties = some ps → p ∉ ps) → w = none := by
    intro j u w h1 h2 h3
    have hh := get_forall₂ h j h1 h2
    obtain ⟨ps, hps⟩ := Option.ne_none_iff_exists'.mp (hk u (List.mem_of_getElem? h1))
    have := hh ps hps
    cases w with
    | none => rfl
    | some x => exact absurd (this.mp rfl) (h3 ps hps)
  refine ⟨?_, ?_⟩
  · intro i u ps v hu hps hm hv
    rw [hrun, firstHeld_unique i v hv]
    intro j w hj hne
    have hlen := h.length_eq
    obtain ⟨hja, _⟩ := List.getElem?_eq_some_iff.mp hj
    have hjt : j < ts.length := by omega
    refine hnone j ts[j] w (List.getElem?_eq_getElem hjt) hj ?_
    intro qs hqs hmq
    have hnr : ¬ convergeTy ts = none := by rw [ht]; simp
    rw [converge_rejected_iff] at hnr
    apply hnr
    refine .inr (.inr ⟨ts.map (fun t => t.parties.getD []), ?_, ?_⟩)
    · rw [List.map_map]
      apply List.map_congr_left
      intro x hx
      obtain ⟨ps, hps⟩ := Option.ne_none_iff_exists'.mp (hk x hx)
      simp [hps]
    · intro hpw
      obtain ⟨hit, hui⟩ := List.getElem?_eq_some_iff.mp hu
      rw [List.pairwise_iff_getElem] at hpw
      have key : ∀ x y (hx : x < ts.length) (hy : y < ts.length), x < y → ∀ q ∈ (ts[x].parties.getD []), q ∉ (ts[y].parties.getD []) := by
        intro x y hx hy hxy q hq
        have := hpw x y (by simpa using hx) (by simpa using hy) hxy q
        simp only [List.getElem_map] at this
        exact this hq
      rcases Nat.lt_or_gt_of_ne hne with hlt | hgt
      · exact key j i hjt hit hlt p (by simp [hqs, hmq]) (by simp [hui, hps, hm])
      · exact key i j hit hjt hgt p (by simp [hui, hps, hm]) (by simp [hqs, hmq])
  · intro hno
    rw [hrun, firstHeld_none]
    intro x hx
    obtain ⟨j, hj, rfl⟩ := List.mem_iff_getElem.mp hx
    have hjt : j < ts.length := by have := h.length_eq; omega
    exact hnone j ts[j] _ (List.getElem?_eq_getElem hjt) (List.getElem?_eq_getElem hj) (hno _ (List.getElem_mem hjt))

/-! ## C21 -/

/-- **C21** If all predicates are equal, in every schedule every party passes the check with that value. -/
theorem uniform_check_passes (tr : V → Bool) (N : Nat) (pr : Nat → Bool) (b : Bool) (hb : ∀ p, p < N → pr p = b)
    (c : Nat → Nat → Nat) (hc : Symm c) :
    ∃ t, Always N (syncSt (fun p => verifyUniform tr N p (pr p)) c) t ∧ ∀ p, p < N → t.proc p = .ret b := by
  by_cases hN : 0 < N
  · exact always_of_to c hc (verify_uniform_to hN tr pr b hb (fun _ x => .ret x) _ (fun p _ => (bind_ret _).symm)) (fun p _ => .inl ⟨_, rfl⟩)
  · refine ⟨_, always_of_reach (wf_sync _ _) (reach_refl N _) (terminal_sync _ _ (fun p hp => absurd hp (by omega))), fun p hp => absurd hp (by omega)⟩

/-- **C21** If two predicates differ, in every schedule every party raises, and at no point of any schedule does any party
get past the check. -/
theorem uniform_check_blocks (tr : V → Bool) (N : Nat) (pr : Nat → Bool) (x y : Nat) (hx : x < N) (hy : y < N) (hne : pr x ≠ pr y)
    (c : Nat → Nat → Nat) (hc : Symm c) :
    (∃ t, Always N (syncSt (fun p => verifyUniform tr N p (pr p)) c) t ∧ ∀ p, p < N → t.proc p = .fail) ∧
    ∀ ms u, exec (step N) (syncSt (fun p => verifyUniform tr N p (pr p)) c) ms = some u → ∀ p b, p < N → u.proc p ≠ .ret b := by
  have h : ∃ t, Always N (syncSt (fun p => verifyUniform tr N p (pr p)) c) t ∧ ∀ p, p < N → t.proc p = .fail := by
    refine always_of_to c hc ?_ (fun p _ => .inr rfl)
    cases h1 : pr x with
    | true =>
      have h2 : pr y = false := by cases hh : pr y with
        | true => exact absurd (h1.trans hh.symm) hne
        | false => rfl
      exact verify_differs_to tr pr x y hx hy h1 h2 (fun _ x => .ret x) _ (fun p _ => (bind_ret _).symm)
    | false =>
      have h2 : pr y = true := by cases hh : pr y with
        | true => rfl
        | false => exact absurd (h1.trans hh.symm) hne
      exact verify_differs_to tr pr y x hy hx h2 h1 (fun _ x => .ret x) _ (fun p _ => (bind_ret _).symm)
  refine ⟨h, ?_⟩
  obtain ⟨t, h1, h2⟩ := h
  intro ms u hu p b hp hr
  have := returns_unique h1 p b ms u hu hr
  rw [h2 p hp] at this
  cases this

/-- **C21** The conditional itself, checking on: predicates differ (a missing predicate counts as false) ⇒ every party raises
in every schedule, whatever the branches are. -/
theorem uniform_cond_raises (tr : V → Bool) (N f : Nat) (pred : Nat) (args : List Nat) (thn els : Region V T) (σ a : Nat → List (LV V))
    (v : Nat → LV V) (h1 : ∀ p, p < N → (σ p)[pred]? = some (v p)) (h2 : ∀ p, p < N → pick (σ p) args = some (a p))
    (x y : Nat) (hx : x < N) (hy : y < N) (hne : truthy tr (v x) ≠ truthy tr (v y)) (c : Nat → Nat → Nat) (hc : Symm c) :
    ∃ t, Always N (syncSt (fun p => opRun tr N f p (.cond true pred args thn els) (σ p)) c) t ∧ ∀ p, p < N → t.proc p = .fail := by
  refine always_of_to c hc ?_ (fun p _ => .inr rfl)
  have hP : ∀ p, p < N → opRun tr N f p (.cond true pred args thn els) (σ p) =
      (verifyUniform tr N p (truthy tr (v p))).bind (fun b => if b then regionRun tr N f p thn (a p) else regionRun tr N f p els (a p)) := by
    intro p hp
    simp only [opRun, h1 p hp, h2 p hp, withArgs, if_true]
  cases e1 : truthy tr (v x) with
  | true =>
    have e2 : truthy tr (v y) = false := by cases hh : truthy tr (v y) with
      | true => exact absurd (e1.trans hh.symm) hne
      | false => rfl
    exact verify_differs_to tr (fun p => truthy tr (v p)) x y hx hy e1 e2 _ _ hP
  | false =>
    have e2 : truthy tr (v y) = true := by cases hh : truthy tr (v y) with
      | true => rfl
      | false => exact absurd (e1.trans hh.symm) hne
    exact verify_differs_to tr (fun p => truthy tr (v p)) y x hy hx e2 e1 _ _ hP

/-- **C21** Predicates all equal to `b`: every party runs exactly the branch of `b`, in every schedule. -/
theorem uniform_cond_runs_branch (tr : V → Bool) (N : Nat) (verify : Bool) (pred : Nat) (args : List Nat) (thn els : Region V T)
    (σ a ρ : Nat → List (LV V)) (v : Nat → LV V) (b : Bool) (h1 : ∀ p, p < N → (σ p)[pred]? = some (v p))
    (hb : ∀ p, p < N → truthy tr (v p) = b) (h2 : ∀ p, p < N → pick (σ p) args = some (a p))
    (hbr : Ev tr N (.region (if b then thn else els)) a ρ) (c : Nat → Nat → Nat) (hc : Symm c) :
    ∃ f0, ∀ f, f0 ≤ f → ∃ t, Always N (syncSt (fun p => opRun tr N f p (.cond verify pred args thn els) (σ p)) c) t ∧
      ∀ p, p < N → t.proc p = .ret (ρ p) := by
  obtain ⟨f0, hs⟩ := ev_sim (List (LV V)) tr N _ σ ρ (.cond verify pred args thn els σ ρ a v b h1 hb h2 hbr)
  refine ⟨f0, fun f hf => always_of_to c hc (hs f f hf hf (fun _ x => .ret x) _ (fun p _ => (bind_ret _).symm)) (fun p _ => .inl ⟨_, rfl⟩)⟩

/-! ## C22 -/

/-- **C22** (specification side) The loop relates `st` to `ρ` exactly if there is a sequence of states from `st`, each obtained
from the previous one by the body on (state, captured values), the condition being true (at all parties) before the last state
and false at the last one, which is the result. -/
theorem loop_iterates (tr : V → Bool) (N : Nat) (cnd body : Region V T) (cs st ρ : Nat → List (LV V)) :
    Ev tr N (.loop cnd body cs) st ρ ↔ ∃ (n : Nat) (s cv : Nat → Nat → List (LV V)), s 0 = st ∧
      (∀ i, i ≤ n → Ev tr N (.region cnd) (fun p => s i p ++ cs p) (cv i)) ∧
      (∀ i, i < n → (∀ p, p < N → condTruth tr (cv i p) = true) ∧ Ev tr N (.region body) (fun p => s i p ++ cs p) (s (i + 1))) ∧
      (∀ p, p < N → condTruth tr (cv n p) = false ∧ ρ p = s n p) := by
  constructor
  · intro h
    generalize ht : Task.loop cnd body cs = t at h
    induction h with
    | loopDone cnd' body' cs' st cv ρ h1 h2 h3 =>
      cases ht
      exact ⟨0, fun _ => st, fun _ => cv, rfl, fun i _ => h1, fun i hi => absurd hi (by omega), fun p hp => ⟨h2 p hp, h3 p hp⟩⟩
    | loopStep cnd' body' cs' st st' cv ρ h1 h2 h3 _ _ _ ih =>
      cases ht
      obtain ⟨n, s, cv', e0, e1, e2, e3⟩ := ih rfl
      refine ⟨n + 1, fun i => match i with | 0 => st | i + 1 => s i, fun i => match i with | 0 => cv | i + 1 => cv' i, rfl, ?_, ?_, ?_⟩
      · intro i hi
        cases i with
        | zero => exact h1
        | succ i => exact e1 i (by omega)
      · intro i hi
        cases i with
        | zero => exact ⟨h2, by simpa [e0] using h3⟩
        | succ i => exact e2 i (by omega)
      · exact e3
    | _ => cases ht
  · rintro ⟨n, s, cv, rfl, e1, e2, e3⟩
    induction n generalizing s cv with
    | zero => exact .loopDone cnd body cs _ _ _ (e1 0 (by omega)) (fun p hp => (e3 p hp).1) (fun p hp => (e3 p hp).2)
    | succ n ih =>
      refine .loopStep cnd body cs _ _ _ _ (e1 0 (by omega)) (e2 0 (by omega)).1 (e2 0 (by omega)).2 ?_
      exact ih (fun i => s (i + 1)) (fun i => cv (i + 1)) (fun i hi => e1 (i + 1) (by omega)) (fun i hi => e2 (i + 1) (by omega)) e3

/-- **C22** The loop operation: given a sequence of states as in `loop_iterates`, every schedule ends with every party holding
its part of the first state whose condition is false (all parties do the same `n` iterations). -/
theorem while_loop_correct (tr : V → Bool) (N : Nat) (state caps : List Nat) (cnd body : Region V T) (σ cs : Nat → List (LV V))
    (n : Nat) (s cv : Nat → Nat → List (LV V))
    (h0 : ∀ p, p < N → pick (σ p) state = some (s 0 p)) (hcs : ∀ p, p < N → pick (σ p) caps = some (cs p))
    (hc1 : ∀ i, i ≤ n → Ev tr N (.region cnd) (fun p => s i p ++ cs p) (cv i))
    (hb : ∀ i, i < n → Ev tr N (.region body) (fun p => s i p ++ cs p) (s (i + 1)))
    (ht : ∀ i p, i < n → p < N → condTruth tr (cv i p) = true) (hf : ∀ p, p < N → condTruth tr (cv n p) = false)
    (c : Nat → Nat → Nat) (hc : Symm c) :
    ∃ f0, ∀ f, f0 ≤ f → ∃ t, Always N (syncSt (fun p => opRun tr N f p (.loop state caps cnd body) (σ p)) c) t ∧
      ∀ p, p < N → t.proc p = .ret (s n p) := by
  have hev : Ev tr N (.loop cnd body cs) (s 0) (s n) :=
    (loop_iterates tr N cnd body cs (s 0) (s n)).mpr ⟨n, s, cv, rfl, hc1, fun i hi => ⟨fun p hp => ht i p hi hp, hb i hi⟩, fun p hp => ⟨hf p hp, rfl⟩⟩
  obtain ⟨f0, hs⟩ := ev_sim (List (LV V)) tr N _ σ (s n) (.loopOp state caps cnd body σ (s n) (s 0) cs h0 hcs hev)
  exact ⟨f0, fun f hf => always_of_to c hc (hs f f hf hf (fun _ x => .ret x) _ (fun p _ => (bind_ret _).symm)) (fun p _ => .inl ⟨_, rfl⟩)⟩

end

/-! ## Non-vacuity -/

/-- `+1` on every argument, one result -/
def addOne : Nat → List (LV Nat) → Option (List (LV Nat))
  | _, [some x] => some [some (x + 1)]
  | _, _ => none

/-- three parties; x held by all: y = pcall {0,1} (x+1); z = shuffle {2: 1} y; w = pcall {0} (x+1); v = converge w z -/
def demo : Ops Nat Unit :=
  .cons (.pcall [0, 1] addOne [()] [0]) (.cons (.shuffle [(2, 1)] 1) (.cons (.pcall [0] addOne [()] [0]) (.cons (.converge [3, 2]) .nil)))

example : regionTy true (.mk demo [1, 2, 4]) [⟨(), some [0, 1, 2]⟩] =
    some [⟨(), some [0, 1]⟩, ⟨(), some [2]⟩, ⟨(), some [0, 2]⟩] := by rfl

theorem addOne_ok (p : Nat) (x : Nat) : addOne p [some x] = some [some (x + 1)] := rfl

/-- the demo program meets the hypotheses of `party_types_sound_partial`: it evaluates, here with inputs 10, 20, 30 -/
example : Ev (fun _ => true) 3 (.region (.mk demo [1, 2, 4])) (fun p => [some (10 * (p + 1))])
    (fun p => [if p ∈ [0, 1] then some (10 * (p + 1) + 1) else none, if p = 2 then some 21 else none,
      if p = 0 then some 11 else if p = 2 then some 21 else none]) := by
  refine .region _ _ _ (fun p => [some (10 * (p + 1)), if p ∈ [0, 1] then some (10 * (p + 1) + 1) else none,
    if p = 2 then some 21 else none, if p ∈ [0] then some (10 * (p + 1) + 1) else none,
    if p = 0 then some 11 else if p = 2 then some 21 else none]) _ ?_ (fun p _ => rfl)
  refine .cons _ _ _ (fun p => [if p ∈ [0, 1] then some (10 * (p + 1) + 1) else none]) _
    (.pcall _ _ _ _ _ _ (fun p => [some (10 * (p + 1))]) (fun p _ => rfl) (fun p _ hm => ?_) (fun p _ hm => by simp [hm])) ?_
  · simp only [hm, if_true]; exact ⟨rfl, rfl⟩
  refine .cons _ _ _ (fun p => [if p = 2 then some 21 else none]) _
    (.shuffle _ _ _ _ (fun p => if p ∈ [0, 1] then some (10 * (p + 1) + 1) else none) ⟨by decide, by decide⟩ ?_ (fun p _ => rfl) ?_) ?_
  · rintro a b ⟨h1, h2, h3⟩; simp at h2 h3; omega
  · intro p hp
    have : p = 0 ∨ p = 1 ∨ p = 2 := by omega
    rcases this with rfl | rfl | rfl <;> rfl
  refine .cons _ _ _ (fun p => [if p ∈ [0] then some (10 * (p + 1) + 1) else none]) _
    (.pcall _ _ _ _ _ _ (fun p => [some (10 * (p + 1))]) (fun p _ => rfl) (fun p _ hm => ?_) (fun p _ hm => by simp [hm])) ?_
  · simp only [hm, if_true]; exact ⟨rfl, rfl⟩
  refine .cons _ _ _ (fun p => [if p = 0 then some 11 else if p = 2 then some 21 else none]) _
    (.converge _ _ _ (fun p => [if p ∈ [0] then some (10 * (p + 1) + 1) else none, if p = 2 then some 21 else none]) (fun p _ => rfl) ?_) ?_
  · intro p hp
    have : p = 0 ∨ p = 1 ∨ p = 2 := by omega
    rcases this with rfl | rfl | rfl <;> rfl
  · exact .nil _

/-- `-1` -/
def decr : Nat → List (LV Nat) → Option (List (LV Nat))
  | _, [some x] => some [some (x - 1)]
  | _, _ => none

/-- a loop that counts a replicated value down to zero while a captured value stays put; truth is "non-zero" -/
def countdown : Op Nat Unit :=
  .loop [0] [1] (.mk .nil [0]) (.mk (.cons (.pcall [0, 1] decr [()] [0]) .nil) [2])

/-- `while_loop_correct` applies to it for every start value `m`: `m` iterations, result 0 at both parties -/
example (m : Nat) (c : Nat → Nat → Nat) (hc : Symm c) :
    ∃ f0, ∀ f, f0 ≤ f → ∃ t, Always 2 (syncSt (fun p => opRun (fun v => decide (v ≠ 0)) 2 f p countdown [some m, some 7]) c) t ∧
      ∀ p, p < 2 → t.proc p = .ret [some 0] := by
  have h := while_loop_correct (T := Unit) (fun v => decide (v ≠ 0)) 2 [0] [1] (.mk .nil [0]) (.mk (.cons (.pcall [0, 1] decr [()] [0]) .nil) [2]) (fun _ => [some m, some 7]) (fun _ => [some 7]) m (fun i _ => [some (m - i)]) (fun i _ => [some (m - i)])
    (fun _ _ => rfl) (fun _ _ => rfl) (fun i _ => .region _ _ _ _ _ (.nil _) (fun _ _ => rfl))
    (fun i _ => .region _ _ _ (fun _ => [some (m - i), some 7, some (m - i - 1)]) _
      (.cons _ _ _ (fun _ => [some (m - i - 1)]) _
        (.pcall _ _ _ _ _ _ (fun _ => [some (m - i)]) (fun _ _ => rfl) (fun p _ _ => ⟨rfl, rfl⟩) (fun p hp hm => by simp at hm; omega))
        (.nil _)) (fun p _ => by simp [pick]; omega))
    (fun i p hi _ => by simp [condTruth, truthy]; omega) (fun p _ => by simp [condTruth, truthy]) c hc
  simpa [countdown] using h

/-- predicates that differ exist: party 0 true, party 1 has no value (`None` counts as false) -/
example : truthy (fun _ : Nat => true) (some 1) ≠ truthy (fun _ : Nat => true) none := by decide

end Verif.Simp
