import Verif.Simp.Sim
import Mathlib.Data.List.Forall2
/-!
# Party types (dialects/simp.py) and their soundness: C16, C17, C18, C20
-/
namespace Verif.Simp
open Verif.Comm

/-- `MPType(value_type, parties)`; `parties = None` is a dynamic party set.  Values without MP type are not modelled. -/
structure Ty (T : Type) where
  vt : T
  parties : Option (List Nat)
deriving DecidableEq

section
variable {V T : Type} [DecidableEq T]

/-- `set(a) <= set(b)` -/
def subsetB (a b : List Nat) : Bool := a.all (fun x => decide (x ∈ b))

/-- all party sets known? then the list of them -/
def knownSets : List (Ty T) → Option (List (List Nat))
  | [] => some []
  | t :: ts => match t.parties, knownSets ts with
    | some p, some ps => some (p :: ps)
    | _, _ => none

/-- `_deduce_parties` (simp.py:73-97): intersection of the known party sets, `None` for no inputs or a dynamic one -/
def deduceParties (ts : List (Ty T)) : Option (List Nat) :=
  match ts with
  | [] => none
  | _ => match knownSets ts with
    | some (p :: ps) => some (sortedSet (ps.foldl (fun acc q => acc.filter (fun x => decide (x ∈ q))) p))
    | _ => none

/-- the `issubset` test of `_pcall_static_trace` (simp.py:426-431) -/
def pcallCheck (requested : List Nat) (ts : List (Ty T)) : Bool :=
  match deduceParties ts with
  | some d => subsetB requested d
  | none => true

/-- the source check of `_shuffle_ae` (simp.py:630-637) -/
def shuffleCheck (routing : List (Nat × Nat)) : Option (List Nat) → Bool
  | some ps => routing.all (fun e => decide (e.2 ∈ ps))
  | none => true

/-- pairwise disjointness check (simp.py:685-692) -/
def disjointB : List (List Nat) → Bool
  | [] => true
  | p :: ps => ps.all (fun q => p.all (fun x => decide (x ∉ q))) && disjointB ps

/-- output parties of `_converge_ae` (simp.py:677-699); outer `none` = ValueError -/
def convergeParties (ts : List (Ty T)) : Option (Option (List Nat)) :=
  match knownSets ts with
  | none => some none
  | some ps => if disjointB ps then
      (if ps.flatten.isEmpty then some none else some (some (sortedSet ps.flatten)))
    else none

/-- `_converge_ae` (simp.py:643-701) -/
def convergeTy (ts : List (Ty T)) : Option (Ty T) :=
  match ts with
  | [] => none
  | t :: rest => if rest.all (fun u => decide (u.vt = t.vt)) then (convergeParties ts).map (fun p => ⟨t.vt, p⟩) else none

/-- is this value's party set known? -/
def known (t : Ty T) : Bool := t.parties.isSome

mutual
/-- types of the results of an operation, `none` = rejected when the program is built.  `strict = false` is the code;
`strict = true` additionally rejects passing a value with dynamic party set to a static call or a shuffle. -/
def opTy (strict : Bool) : Op V T → List (Ty T) → Option (List (Ty T))
  -- `_pcall_static_trace` (simp.py:381-455); the attribute is `tuple(sorted(set(parties)))`
  | .pcall parties _ outs args, Γ => (pick Γ args).bind fun ts =>
      if pcallCheck parties ts && (!strict || ts.all known) then some (outs.map (fun t => ⟨t, some parties⟩)) else none
  -- `_pcall_dynamic_trace` (simp.py:458-514)
  | .pcallDyn _ outs args, Γ => (pick Γ args).bind fun _ => some (outs.map (fun t => ⟨t, none⟩))
  -- `_shuffle_ae` (simp.py:603-640)
  | .shuffle routing arg, Γ => (Γ[arg]?).bind fun t =>
      if !routing.isEmpty && shuffleCheck routing t.parties && (!strict || known t) then
        some [⟨t.vt, some (sortedSet (routing.map Prod.fst))⟩] else none
  | .converge args, Γ => (pick Γ args).bind fun ts => (convergeTy ts).map (fun t => [t])
  -- `_uniform_cond_trace` (simp.py:130-226): both branches traced on the same arguments, same output types
  | .cond _ pred args thn els, Γ => (Γ[pred]?).bind fun _ => (pick Γ args).bind fun ts =>
      (regionTy strict thn ts).bind fun a => (regionTy strict els ts).bind fun b => if a = b then some a else none
  -- `_while_loop_trace` (simp.py:262-346): body output types equal the state types
  | .loop state caps cnd body, Γ => (pick Γ state).bind fun ts => (pick Γ caps).bind fun cs =>
      (regionTy strict cnd (ts ++ cs)).bind fun c => (regionTy strict body (ts ++ cs)).bind fun b =>
        if c.length ≤ 1 ∧ b = ts then some ts else none
/-- types of a block -/
def regionTy (strict : Bool) : Region V T → List (Ty T) → Option (List (Ty T))
  | .mk ops outs, Γ => (opsTy strict ops Γ).bind fun Γ' => pick Γ' outs
/-- types after a list of operations -/
def opsTy (strict : Bool) : Ops V T → List (Ty T) → Option (List (Ty T))
  | .nil, Γ => some Γ
  | .cons o os, Γ => (opTy strict o Γ).bind fun r => opsTy strict os (Γ ++ r)
end

mutual
/-- the local functions of the program return values (never `None`) when all their arguments are values -/
def opTotal : Op V T → Prop
  | .pcall _ F _ _ => ∀ p a r, (∀ x ∈ a, x.isSome) → F p a = some r → ∀ x ∈ r, x.isSome
  | .pcallDyn _ _ _ => True
  | .shuffle _ _ => True
  | .converge _ => True
  | .cond _ _ _ thn els => regionTotal thn ∧ regionTotal els
  | .loop _ _ c b => regionTotal c ∧ regionTotal b
/-- … in a block -/
def regionTotal : Region V T → Prop
  | .mk ops _ => opsTotal ops
/-- … in a list of operations -/
def opsTotal : Ops V T → Prop
  | .nil => True
  | .cons o os => opTotal o ∧ opsTotal os
end

/-- **Specification of C16**: party `p` holds value `v` of type `t` exactly if it is in the (known) party set -/
def Holds (t : Ty T) (p : Nat) (v : LV V) : Prop := ∀ ps, t.parties = some ps → (v.isSome ↔ p ∈ ps)

/-- party by party and value by value -/
def HoldsAll (N : Nat) (Γ : List (Ty T)) (σ : Nat → List (LV V)) : Prop := ∀ p, p < N → List.Forall₂ (fun t v => Holds t p v) Γ (σ p)

theorem pick_forall₂ {α β : Type} {R : α → β → Prop} {l : List α} {m : List β} (h : List.Forall₂ R l m) (is : List Nat) {a : List α}
    {b : List β} (ha : pick l is = some a) (hb : pick m is = some b) : List.Forall₂ R a b := by
  induction is generalizing a b with
  | nil => simp only [pick, Option.some.injEq] at ha hb; subst ha; subst hb; exact .nil
  | cons i is ih =>
    simp only [pick] at ha hb
    cases h1 : l[i]? with
    | none => simp [h1] at ha
    | some x =>
      cases h2 : pick l is with
      | none => simp [h1, h2] at ha
      | some xs =>
        cases h3 : m[i]? with
        | none => simp [h3] at hb
        | some y =>
          cases h4 : pick m is with
          | none => simp [h3, h4] at hb
          | some ys =>
            simp only [h1, h2, h3, h4, Option.some.injEq] at ha hb
            subst ha; subst hb
            refine .cons ?_ (ih h2 h4)
            obtain ⟨hi, rfl⟩ := List.getElem?_eq_some_iff.mp h1
            obtain ⟨hi', rfl⟩ := List.getElem?_eq_some_iff.mp h3
            exact h.get hi hi'

theorem get_forall₂ {α β : Type} {R : α → β → Prop} {l : List α} {m : List β} (h : List.Forall₂ R l m) (i : Nat) {x : α} {y : β}
    (h1 : l[i]? = some x) (h3 : m[i]? = some y) : R x y := by
  obtain ⟨hi, rfl⟩ := List.getElem?_eq_some_iff.mp h1
  obtain ⟨hi', rfl⟩ := List.getElem?_eq_some_iff.mp h3
  exact h.get hi hi'

theorem knownSets_some (ts : List (Ty T)) (h : ts.all known = true) : knownSets ts = some (ts.map (fun t => t.parties.getD [])) := by
  induction ts with
  | nil => rfl
  | cons t ts ih =>
    simp only [List.all_cons, Bool.and_eq_true, known] at h
    obtain ⟨p, hp⟩ := Option.isSome_iff_exists.mp h.1
    simp [knownSets, hp, ih h.2]

theorem knownSets_inv (ts : List (Ty T)) (ps : List (List Nat)) (h : knownSets ts = some ps) :
    ts.map (·.parties) = ps.map some := by
  induction ts generalizing ps with
  | nil => simp only [knownSets, Option.some.injEq] at h; subst h; rfl
  | cons t ts ih =>
    simp only [knownSets] at h
    cases h1 : t.parties with
    | none => simp [h1] at h
    | some p =>
      cases h2 : knownSets ts with
      | none => simp [h1, h2] at h
      | some qs =>
        simp only [h1, h2, Option.some.injEq] at h
        subst h
        simp [h1, ih qs h2]

theorem mem_foldl_filter (ps : List (List Nat)) (p : List Nat) (x : Nat) :
    x ∈ ps.foldl (fun acc q => acc.filter (fun x => decide (x ∈ q))) p ↔ x ∈ p ∧ ∀ q ∈ ps, x ∈ q := by
  induction ps generalizing p with
  | nil => simp
  | cons q ps ih =>
    simp only [List.foldl_cons, ih, List.mem_filter, decide_eq_true_eq, List.mem_cons, forall_eq_or_imp]
    exact and_assoc

theorem subsetB_iff (a b : List Nat) : subsetB a b = true ↔ ∀ x ∈ a, x ∈ b := by
  simp [subsetB]

/-- the acceptance rule of a static call, for arguments with known party sets -/
theorem pcallCheck_known (req : List Nat) (ts : List (Ty T)) (h : ts.all known = true) :
    pcallCheck req ts = true ↔ ∀ x ∈ req, ∀ t ∈ ts, ∀ ps, t.parties = some ps → x ∈ ps := by
  unfold pcallCheck deduceParties
  cases ts with
  | nil => simp
  | cons t ts =>
    rw [knownSets_some _ h]
    simp only [List.map_cons, subsetB_iff, mem_sortedSet, mem_foldl_filter, List.mem_map, forall_exists_index, and_imp,
      forall_apply_eq_imp_iff₂, List.mem_cons, forall_eq_or_imp]
    simp only [List.all_cons, Bool.and_eq_true, known, List.all_eq_true] at h
    constructor
    · intro hx x hm
      obtain ⟨h1, h2⟩ := hx x hm
      refine ⟨fun ps hps => by simpa [hps] using h1, fun u hu ps hps => by simpa [hps] using h2 u hu⟩
    · intro hx x hm
      obtain ⟨h1, h2⟩ := hx x hm
      refine ⟨?_, ?_⟩
      · obtain ⟨ps, hps⟩ := Option.isSome_iff_exists.mp h.1
        simpa [hps] using h1 ps hps
      · intro u hu
        obtain ⟨ps, hps⟩ := Option.isSome_iff_exists.mp (h.2 u hu)
        simpa [hps] using h2 u hu ps hps

theorem disjointB_iff (ps : List (List Nat)) : disjointB ps = true ↔ ps.Pairwise (fun a b => ∀ x ∈ a, x ∉ b) := by
  induction ps with
  | nil => simp [disjointB]
  | cons p ps ih =>
    simp only [disjointB, Bool.and_eq_true, ih, List.pairwise_cons, List.all_eq_true, decide_eq_true_eq]

/-- the value of a converge: the value of the unique input that holds one -/
theorem firstHeld_isSome (l : List (LV V)) : (firstHeld l).isSome ↔ ∃ x ∈ l, x.isSome := by
  induction l with
  | nil => simp [firstHeld]
  | cons a l ih => cases a <;> simp [firstHeld, ih]

theorem holds_replicate (N : Nat) (outs : List T) (parties : List Nat) (p : Nat) (h : p ∉ parties) :
    List.Forall₂ (fun (t : Ty T) (v : LV V) => Holds t p v) (outs.map (fun t => ⟨t, some parties⟩)) (List.replicate outs.length none) := by
  induction outs with
  | nil => exact .nil
  | cons t outs ih =>
    refine .cons ?_ ih
    intro ps hps
    simp only [Option.some.injEq] at hps
    subst hps
    simp [h]

theorem holds_somes (outs : List T) (parties : List Nat) (p : Nat) (h : p ∈ parties) (r : List (LV V)) (hl : r.length = outs.length)
    (hr : ∀ x ∈ r, x.isSome) :
    List.Forall₂ (fun (t : Ty T) (v : LV V) => Holds t p v) (outs.map (fun t => ⟨t, some parties⟩)) r := by
  induction outs generalizing r with
  | nil => simp only [List.length_nil, List.length_eq_zero_iff] at hl; subst hl; exact .nil
  | cons t outs ih =>
    cases r with
    | nil => simp at hl
    | cons x r =>
      refine .cons ?_ (ih r (by simpa using hl) (fun y hy => hr y (by simp [hy])))
      intro ps hps
      simp only [Option.some.injEq] at hps
      subst hps
      simp [h, hr x (by simp)]

theorem forall₂_known_some {ts : List (Ty T)} {a : List (LV V)} {p : Nat} (h : List.Forall₂ (fun t v => Holds t p v) ts a)
    (hp : ∀ t ∈ ts, ∃ ps, t.parties = some ps ∧ p ∈ ps) : ∀ x ∈ a, x.isSome := by
  induction h with
  | nil => simp
  | cons h _ ih =>
    intro x hx
    rcases List.mem_cons.mp hx with rfl | hx
    · obtain ⟨ps, h1, h2⟩ := hp _ List.mem_cons_self
      exact (h ps h1).mpr h2
    · exact ih (fun t ht => hp t (by simp [ht])) x hx

theorem forall₂_append {α β : Type} {R : α → β → Prop} {a b : List α} {c d : List β} (h1 : List.Forall₂ R a c) (h2 : List.Forall₂ R b d) :
    List.Forall₂ R (a ++ b) (c ++ d) := by
  induction h1 with
  | nil => exact h2
  | cons h _ ih => exact .cons h ih

theorem converge_holds {ts : List (Ty T)} {a : List (LV V)} {p : Nat} {t : Ty T} (ht : convergeTy ts = some t)
    (h : List.Forall₂ (fun t v => Holds t p v) ts a) : Holds t p (firstHeld a) := by
  intro qs hqs
  cases ts with
  | nil => simp [convergeTy] at ht
  | cons t0 rest =>
    simp only [convergeTy] at ht
    split at ht
    · simp only [Option.map_eq_some_iff] at ht
      obtain ⟨q, hq, rfl⟩ := ht
      simp only at hqs
      subst hqs
      simp only [convergeParties] at hq
      cases hk : knownSets (t0 :: rest) with
      | none => simp [hk] at hq
      | some ps =>
        simp only [hk] at hq
        split at hq
        · split at hq
          · simp at hq
          · simp only [Option.some.injEq] at hq
            subst hq
            rename_i hd1 hd2
            clear hd1 hd2
            rw [firstHeld_isSome, mem_sortedSet, List.mem_flatten]
            have hps := knownSets_inv _ _ hk
            clear hk
            generalize t0 :: rest = ts at h hps
            induction h generalizing ps with
            | nil =>
              cases ps with
              | nil => simp
              | cons _ _ => simp at hps
            | @cons t v ts a h _ ih =>
              cases ps with
              | nil => simp at hps
              | cons q ps =>
                simp only [List.map_cons, List.cons.injEq] at hps
                simp only [List.mem_cons, exists_eq_or_imp]
                exact or_congr (h q hps.1) (ih ps hps.2)
        · simp at hq
    · simp at ht

/-- typing and totality of a task; for a running loop the state types must be preserved -/
def taskTy (t : Task V T) (N : Nat) (Γ Δ : List (Ty T)) : Prop :=
  match t with
  | .op o => opTy true o Γ = some Δ ∧ opTotal o
  | .ops os => opsTy true os Γ = some Δ ∧ opsTotal os
  | .region r => regionTy true r Γ = some Δ ∧ regionTotal r
  | .loop c b cs => Γ = Δ ∧ regionTotal c ∧ regionTotal b ∧
      ∃ ct, HoldsAll N ct cs ∧ regionTy true b (Γ ++ ct) = some Γ

theorem ev_typed (tr : V → Bool) (N : Nat) (t : Task V T) (σ ρ : Nat → List (LV V)) (h : Ev tr N t σ ρ) (Γ Δ : List (Ty T))
    (ht : taskTy t N Γ Δ) (hσ : HoldsAll N Γ σ) : HoldsAll N Δ ρ := by
  induction h generalizing Γ Δ with
  | pcall parties F outs args σ ρ a h1 h2 h3 =>
    obtain ⟨ht, hF⟩ := ht
    simp only [opTy, Option.bind_eq_some_iff] at ht
    obtain ⟨ts, hts, hc⟩ := ht
    split at hc
    · rename_i hcond
      simp only [Bool.not_true, Bool.false_or, Bool.and_eq_true] at hcond
      simp only [Option.some.injEq] at hc
      subst hc
      intro p hp
      by_cases hm : p ∈ parties
      · obtain ⟨h4, h5⟩ := h2 p hp hm
        refine holds_somes outs parties p hm _ h5 (hF p (a p) _ ?_ h4)
        refine forall₂_known_some (pick_forall₂ (hσ p hp) args hts (h1 p hp)) ?_
        intro t htm
        have hkn := List.all_eq_true.mp hcond.2 t htm
        obtain ⟨ps, hps⟩ := Option.isSome_iff_exists.mp hkn
        exact ⟨ps, hps, (pcallCheck_known parties ts hcond.2).mp hcond.1 p hm t htm ps hps⟩
      · rw [h3 p hp hm]
        exact holds_replicate N outs parties p hm
    · simp at hc
  | pcallDyn F outs args σ ρ a h1 h2 =>
    replace ht := ht.1
    simp only [opTy, Option.bind_eq_some_iff, Option.some.injEq] at ht
    obtain ⟨ts, hts, rfl⟩ := ht
    intro p hp
    obtain ⟨_, h5⟩ := h2 p hp
    generalize ρ p = r at h5
    clear hts h1 h2
    induction outs generalizing r with
    | nil => simp only [List.length_nil, List.length_eq_zero_iff] at h5; subst h5; exact .nil
    | cons t outs ih =>
      cases r with
      | nil => simp at h5
      | cons x r => exact .cons (by intro ps hps; simp at hps) (ih r (by simpa using h5))
  | shuffle routing arg σ ρ d hr hns h1 h2 =>
    obtain ⟨ht, _⟩ := ht
    simp only [opTy, Option.bind_eq_some_iff] at ht
    obtain ⟨t, hta, hc⟩ := ht
    split at hc
    · rename_i hcond
      simp only [Bool.not_true, Bool.false_or, Bool.and_eq_true] at hcond
      simp only [Option.some.injEq] at hc
      subst hc
      intro p hp
      rw [h2 p hp]
      refine .cons ?_ .nil
      intro ps hps
      simp only [Option.some.injEq] at hps
      subst hps
      rw [mem_sortedSet, routed]
      cases hl : lookup p routing with
      | none =>
        simp only [Option.isSome_none, Bool.false_eq_true, false_iff, List.mem_map, not_exists, not_and]
        rintro ⟨x, s⟩ hx rfl
        have := (lookup_mem hr.keys x s).mpr hx
        simp only at hl
        rw [hl] at this
        cases this
      | some s =>
        have hm := (lookup_mem hr.keys p s).mp hl
        have hmem : p ∈ List.map Prod.fst routing := List.mem_map.mpr ⟨_, hm, rfl⟩
        simp only [hmem, iff_true]
        obtain ⟨qs, hqs⟩ := Option.isSome_iff_exists.mp hcond.2
        have hs := (hr.range _ hm).2
        have hh := get_forall₂ (hσ s hs) arg hta (h1 s hs)
        refine (hh qs hqs).mpr ?_
        have := hcond.1.2
        rw [hqs] at this
        simp only [shuffleCheck, List.all_eq_true, decide_eq_true_eq] at this
        exact this _ hm
    · simp at hc
  | converge args σ ρ a h1 h2 =>
    obtain ⟨ht, _⟩ := ht
    simp only [opTy, Option.bind_eq_some_iff, Option.map_eq_some_iff] at ht
    obtain ⟨ts, hts, t, hct, rfl⟩ := ht
    intro p hp
    rw [h2 p hp]
    exact .cons (converge_holds hct (pick_forall₂ (hσ p hp) args hts (h1 p hp))) .nil
  | cond verify pred args thn els σ ρ a v b h1 h2 h3 _ ih =>
    obtain ⟨ht, htot⟩ := ht
    simp only [opTy, Option.bind_eq_some_iff] at ht
    obtain ⟨_, _, ts, hts, a1, ha1, a2, ha2, hc⟩ := ht
    split at hc
    · rename_i heq
      simp only [Option.some.injEq] at hc
      subst hc
      refine ih ts a1 ?_ (fun p hp => pick_forall₂ (hσ p hp) args hts (h3 p hp))
      cases b with
      | true => exact ⟨ha1, htot.1⟩
      | false => exact ⟨by simpa [heq] using ha2, htot.2⟩
    · simp at hc
  | loopOp state caps cnd body σ ρ st cs h1 h2 _ ih =>
    obtain ⟨ht, htot⟩ := ht
    simp only [opTy, Option.bind_eq_some_iff] at ht
    obtain ⟨ts, hts, ct, hct, c, hc, b, hb, hcond⟩ := ht
    split at hcond
    · rename_i heq
      simp only [Option.some.injEq] at hcond
      subst hcond
      refine ih ts ts ⟨rfl, htot.1, htot.2, ct, fun p hp => pick_forall₂ (hσ p hp) caps hct (h2 p hp), by rw [← heq.2]; rw [← heq.2] at hb; exact hb⟩
        (fun p hp => pick_forall₂ (hσ p hp) state hts (h1 p hp))
    · simp at hcond
  | loopDone cnd body cs st cv ρ _ h1 h2 ih =>
    obtain ⟨rfl, _⟩ := ht
    intro p hp
    rw [h2 p hp]
    exact hσ p hp
  | loopStep cnd body cs st st' cv ρ _ h1 _ _ ih1 ih2 ih3 =>
    have ht' := ht
    obtain ⟨rfl, _, hb, ct, hct, hbt⟩ := ht
    refine ih3 Γ Γ ht' (ih2 (Γ ++ ct) Γ ⟨hbt, hb⟩ ?_)
    intro p hp
    exact forall₂_append (hσ p hp) (hct p hp)
  | region os outs σ σ' ρ _ h1 ih =>
    obtain ⟨ht, htot⟩ := ht
    simp only [regionTy, Option.bind_eq_some_iff] at ht
    obtain ⟨Γ', h2, h3⟩ := ht
    have := ih Γ Γ' ⟨h2, htot⟩ hσ
    intro p hp
    exact pick_forall₂ (this p hp) outs h3 (h1 p hp)
  | nil σ =>
    obtain ⟨ht, _⟩ := ht
    simp only [opsTy, Option.some.injEq] at ht
    subst ht
    exact hσ
  | cons o os σ r σ' _ _ ih1 ih2 =>
    obtain ⟨ht, htot⟩ := ht
    simp only [opsTy, Option.bind_eq_some_iff] at ht
    obtain ⟨R, h1, h2⟩ := ht
    refine ih2 (Γ ++ R) Δ ⟨h2, htot.2⟩ ?_
    have := ih1 Γ R ⟨h1, htot.1⟩ hσ
    intro p hp
    exact forall₂_append (hσ p hp) (this p hp)

end
end Verif.Simp
