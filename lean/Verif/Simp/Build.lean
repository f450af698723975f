import Verif.Simp.Props
/-!
# Building multi-party programs

A program under construction: the operations recorded so far and the types of all values (inputs first, then the outputs
of the operations in order).  Library helpers append operations to it; `Delivers` is what the finished program does.
-/
namespace Verif.Simp
open Verif.Comm

section
variable {V T : Type} [DecidableEq T]

/-- The graph being traced (edsl/graph.py:176-220, dialects/simp.py): types of the values, operations in order. -/
structure Bld (V T : Type) where
  tys : List (Ty T)
  ops : List (Op V T)

/-- a python list of operations as a block body -/
def toOps : List (Op V T) → Ops V T
  | [] => .nil
  | o :: os => .cons o (toOps os)

/-- `Graph.add_op` after the abstract evaluation of the primitive (edsl/tracer.py:139-200): rejected (exception), or the
new values and the extended program. -/
def emit (o : Op V T) (b : Bld V T) : Option (List Nat × Bld V T) :=
  (opTy false o b.tys).map (fun ts => ((List.range ts.length).map (fun i => b.tys.length + i), ⟨b.tys ++ ts, b.ops ++ [o]⟩))

/-- the single result of an operation -/
def single (r : Option (List Nat × Bld V T)) : Option (Nat × Bld V T) :=
  r.bind (fun q => q.1.head?.map (fun y => (y, q.2)))

/-- `shuffle_static` (dialects/simp.py:729-762) -/
def shuffleStatic (r : List (Nat × Nat)) (x : Nat) (b : Bld V T) : Option (Nat × Bld V T) := single (emit (.shuffle r x) b)

/-- `converge` (dialects/simp.py:765-788) -/
def converge (xs : List Nat) (b : Bld V T) : Option (Nat × Bld V T) := single (emit (.converge xs) b)

/-- `pcall_static` (dialects/simp.py:517-545): the parties attribute is `tuple(sorted(set(parties)))` -/
def pcallStatic (parties : List Nat) (F : Nat → List (LV V) → Option (List (LV V))) (outs : List T) (args : List Nat) (b : Bld V T) :
    Option (List Nat × Bld V T) := emit (.pcall (sortedSet parties) F outs args) b

/-- `[f(x) for x in xs]` where every call records operations -/
def mapBuild {A : Type} (f : A → Bld V T → Option (Nat × Bld V T)) : List A → Bld V T → Option (List Nat × Bld V T)
  | [], b => some ([], b)
  | a :: as, b => match f a b with
    | none => none
    | some (y, b1) => match mapBuild f as b1 with
      | none => none
      | some (ys, b2) => some (y :: ys, b2)

/-! ## What a program under construction computes -/

/-- **Specification** The finished program, run at all `N` parties on inputs `σ0` under every schedule of the parties and
of message deliveries, ends and gives party `p` the local value `f p` for `y` (`none`: the party holds nothing). -/
def Delivers (tr : V → Bool) (N : Nat) (b : Bld V T) (σ0 : Nat → List (LV V)) (y : Nat) (f : Nat → LV V) : Prop :=
  ∀ c, Symm c → ∃ f0, ∀ fuel, f0 ≤ fuel →
    ∃ t, Always N (syncSt (fun p => regionRun tr N fuel p (.mk (toOps b.ops) [y]) (σ0 p)) c) t ∧ ∀ p, p < N → t.proc p = .ret [f p]

/-- The program so far evaluates; `σ p` are the local values of party `p`. -/
structure Run (tr : V → Bool) (N : Nat) (b : Bld V T) (σ0 σ : Nat → List (LV V)) : Prop where
  ev : Ev tr N (.ops (toOps b.ops)) σ0 σ
  len : ∀ p, p < N → (σ p).length = b.tys.length

/-- Value `x` has type `t` and party `p` holds `f p`. -/
structure Has (N : Nat) (b : Bld V T) (σ : Nat → List (LV V)) (x : Nat) (t : Ty T) (f : Nat → LV V) : Prop where
  ty : b.tys[x]? = some t
  val : ∀ p, p < N → (σ p)[x]? = some (f p)

/-- `b'` continues `b`: what was there is unchanged. -/
structure Cont (tr : V → Bool) (N : Nat) (b : Bld V T) (σ : Nat → List (LV V)) (b' : Bld V T) (σ' : Nat → List (LV V)) : Prop where
  run : ∀ σ0, Run tr N b σ0 σ → Run tr N b' σ0 σ'
  keep : ∀ (x : Nat) t f, Has N b σ x t f → Has N b' σ' x t f
  len : (∀ p, p < N → (σ p).length = b.tys.length) → ∀ p, p < N → (σ' p).length = b'.tys.length

theorem Cont.refl (tr : V → Bool) (N : Nat) (b : Bld V T) (σ : Nat → List (LV V)) : Cont tr N b σ b σ :=
  ⟨fun _ h => h, fun _ _ _ h => h, fun h => h⟩

theorem Cont.trans {tr : V → Bool} {N : Nat} {b1 b2 b3 : Bld V T} {σ1 σ2 σ3 : Nat → List (LV V)}
    (h1 : Cont tr N b1 σ1 b2 σ2) (h2 : Cont tr N b2 σ2 b3 σ3) : Cont tr N b1 σ1 b3 σ3 :=
  ⟨fun s h => h2.run s (h1.run s h), fun x t f h => h2.keep x t f (h1.keep x t f h), fun h => h2.len (h1.len h)⟩

theorem delivers_of_run {tr : V → Bool} {N : Nat} {b : Bld V T} {σ0 σ : Nat → List (LV V)} {y : Nat} {t : Ty T} {f : Nat → LV V}
    (h : Run tr N b σ0 σ) (hy : Has N b σ y t f) : Delivers tr N b σ0 y f := by
  intro c hc
  refine program_correct tr N (.mk (toOps b.ops) [y]) σ0 (fun p => [f p]) (.region _ _ _ σ _ h.ev ?_) c hc
  intro p hp
  simp [pick, hy.val p hp]

theorem ev_snoc {tr : V → Bool} {N : Nat} (os : List (Op V T)) (o : Op V T) (σ0 σ r : Nat → List (LV V))
    (h : Ev tr N (.ops (toOps os)) σ0 σ) (ho : Ev tr N (.op o) σ r) :
    Ev tr N (.ops (toOps (os ++ [o]))) σ0 (fun p => σ p ++ r p) := by
  induction os generalizing σ0 with
  | nil =>
    simp only [toOps] at h
    cases h
    exact .cons o .nil _ r _ ho (.nil _)
  | cons a os ih =>
    simp only [toOps, List.cons_append] at h ⊢
    cases h with
    | cons _ _ _ r1 _ h1 h2 => exact .cons _ _ _ r1 _ h1 (ih _ h2)

theorem emit_cont {tr : V → Bool} {N : Nat} {b : Bld V T} {o : Op V T} {ts : List (Ty T)} {σ r : Nat → List (LV V)}
    (ho : Ev tr N (.op o) σ r) (hr : ∀ p, p < N → (r p).length = ts.length) :
    Cont tr N b σ ⟨b.tys ++ ts, b.ops ++ [o]⟩ (fun p => σ p ++ r p) := by
  refine ⟨fun s h => ⟨ev_snoc _ _ _ _ _ h.ev ho, fun p hp => by simp [h.len p hp, hr p hp]⟩, fun x t f h => ⟨?_, ?_⟩,
    fun h p hp => by simp [h p hp, hr p hp]⟩
  · show (b.tys ++ ts)[x]? = _
    rw [List.getElem?_append_left (List.getElem?_eq_some_iff.1 h.ty).1]; exact h.ty
  · intro p hp
    show (σ p ++ r p)[x]? = _
    rw [List.getElem?_append_left (List.getElem?_eq_some_iff.1 (h.val p hp)).1]; exact h.val p hp

/-- The new value number `i` of an operation. -/
theorem emit_has {N : Nat} {b : Bld V T} {o : Op V T} {ts : List (Ty T)} {σ r : Nat → List (LV V)}
    (hlen : ∀ p, p < N → (σ p).length = b.tys.length) (i : Nat) (t : Ty T) (f : Nat → LV V) (ht : ts[i]? = some t)
    (hv : ∀ p, p < N → (r p)[i]? = some (f p)) :
    Has N ⟨b.tys ++ ts, b.ops ++ [o]⟩ (fun p => σ p ++ r p) (b.tys.length + i) t f := by
  constructor
  · show (b.tys ++ ts)[b.tys.length + i]? = _
    rw [List.getElem?_append_right (by omega)]; simpa using ht
  · intro p hp
    show (σ p ++ r p)[b.tys.length + i]? = _
    rw [List.getElem?_append_right (by rw [hlen p hp]; omega), hlen p hp]; simpa using hv p hp

/-- A shuffle of a value with known parties. -/
theorem shuffle_build (tr : V → Bool) {N : Nat} {b : Bld V T} {σ : Nat → List (LV V)} (hlen : ∀ p, p < N → (σ p).length = b.tys.length)
    {x : Nat} {vt : T} {ps : List Nat} {f : Nat → LV V} (hx : Has N b σ x ⟨vt, some ps⟩ f) {r : List (Nat × Nat)} (hr : Routing N r)
    (hns : ∀ a c, ¬ Swap r a c) (hne : r ≠ []) (hsrc : ∀ e ∈ r, e.2 ∈ ps) :
    ∃ y b' σ', shuffleStatic r x b = some (y, b') ∧ Cont tr N b σ b' σ' ∧
      Has N b' σ' y ⟨vt, some (sortedSet (r.map Prod.fst))⟩ (routed r f) := by
  have hev : Ev tr N (.op (.shuffle r x : Op V T)) σ (fun p => [routed r f p]) :=
    .shuffle r x σ _ f hr hns hx.val (fun p _ => rfl)
  have hty : opTy false (.shuffle r x : Op V T) b.tys = some [⟨vt, some (sortedSet (r.map Prod.fst))⟩] := by
    simp only [opTy, hx.ty, Option.bind_some]
    refine if_pos ?_
    simp only [shuffleCheck, Bool.not_false, Bool.true_or, Bool.and_true, Bool.and_eq_true, List.all_eq_true, decide_eq_true_eq,
      Bool.not_eq_true', List.isEmpty_eq_false_iff]
    exact ⟨hne, hsrc⟩
  refine ⟨b.tys.length + 0, _, _, ?_, emit_cont (ts := [⟨vt, some (sortedSet (r.map Prod.fst))⟩]) hev (fun p _ => rfl),
    emit_has hlen 0 _ _ rfl (fun p _ => rfl)⟩
  simp [shuffleStatic, emit, hty, single, List.range_succ]

/-- A static call. -/
theorem pcall_build (tr : V → Bool) {N : Nat} {b : Bld V T} {σ : Nat → List (LV V)} (hlen : ∀ p, p < N → (σ p).length = b.tys.length)
    (parties : List Nat) (F : Nat → List (LV V) → Option (List (LV V))) (outs : List T) (args : List Nat) (ts : List (Ty T))
    (a : Nat → List (LV V)) (hts : pick b.tys args = some ts) (ha : ∀ p, p < N → pick (σ p) args = some (a p))
    (hps : ∀ t ∈ ts, ∃ ps, t.parties = some ps ∧ ∀ p ∈ parties, p ∈ ps)
    (ρ : Nat → List (LV V)) (hF : ∀ p, p < N → p ∈ parties → F p (a p) = some (ρ p) ∧ (ρ p).length = outs.length) :
    ∃ ys b' σ', pcallStatic parties F outs args b = some (ys, b') ∧ ys = (List.range outs.length).map (fun i => b.tys.length + i) ∧
      Cont tr N b σ b' σ' ∧
      ∀ (i : Nat) (vt : T), outs[i]? = some vt → Has N b' σ' (b.tys.length + i) ⟨vt, some (sortedSet parties)⟩
        (fun p => if p ∈ parties then ((ρ p)[i]?).getD none else none) := by
  have hm : ∀ p, p ∈ sortedSet parties ↔ p ∈ parties := fun p => mem_sortedSet p parties
  let R : Nat → List (LV V) := fun p => if p ∈ parties then ρ p else List.replicate outs.length none
  have hR : ∀ p, p < N → (R p).length = outs.length := by
    intro p hp
    by_cases h : p ∈ parties
    · simp only [R, if_pos h]; exact (hF p hp h).2
    · simp [R, h]
  have hev : Ev tr N (.op (.pcall (sortedSet parties) F outs args : Op V T)) σ R := by
    refine .pcall _ F outs args σ R a ha (fun p hp h => ?_) (fun p hp h => ?_)
    · simp only [R, if_pos ((hm p).1 h)]; exact hF p hp ((hm p).1 h)
    · simp only [R, if_neg (fun h' => h ((hm p).2 h'))]
  have hty : opTy false (.pcall (sortedSet parties) F outs args : Op V T) b.tys =
      some (outs.map (fun t => ⟨t, some (sortedSet parties)⟩)) := by
    simp only [opTy, hts, Option.bind_some]
    rw [if_pos]
    have hk : ts.all known = true := by
      rw [List.all_eq_true]; intro t ht
      obtain ⟨ps, h, _⟩ := hps t ht
      simp [known, h]
    simp only [Bool.not_false, Bool.true_or, Bool.and_true]
    rw [pcallCheck_known _ _ hk]
    intro p hp t ht ps h
    obtain ⟨ps', h', hin⟩ := hps t ht
    rw [h] at h'; cases h'
    exact hin p ((hm p).1 hp)
  refine ⟨_, ⟨b.tys ++ outs.map (fun t => ⟨t, some (sortedSet parties)⟩), b.ops ++ [.pcall (sortedSet parties) F outs args]⟩, _, ?_, rfl,
    emit_cont hev (by simpa using hR), fun i vt hi => ?_⟩
  · simp [pcallStatic, emit, hty]
  · refine emit_has hlen i _ _ (by simp [hi]) (fun p hp => ?_)
    have hi' : i < (R p).length := by rw [hR p hp]; exact (List.getElem?_eq_some_iff.1 hi).1
    by_cases h : p ∈ parties
    · simp only [if_pos h]
      have : R p = ρ p := by simp [R, h]
      rw [this] at hi' ⊢
      simp [List.getElem?_eq_getElem hi']
    · simp only [if_neg h]
      have : R p = List.replicate outs.length none := by simp [R, h]
      rw [this] at hi' ⊢
      rw [List.getElem?_replicate, if_pos (by simpa using hi')]

/-- `Has` for a list of values. -/
def HasAll (N : Nat) (b : Bld V T) (σ : Nat → List (LV V)) : List Nat → List (Ty T) → List (Nat → LV V) → Prop
  | [], [], [] => True
  | x :: xs, t :: ts, f :: fs => Has N b σ x t f ∧ HasAll N b σ xs ts fs
  | _, _, _ => False

theorem HasAll.cont {tr : V → Bool} {N : Nat} {b b' : Bld V T} {σ σ' : Nat → List (LV V)} (hc : Cont tr N b σ b' σ') :
    ∀ {xs ts fs}, HasAll N b σ xs ts fs → HasAll N b' σ' xs ts fs
  | [], [], [], _ => trivial
  | x :: xs, t :: ts, f :: fs, h => ⟨hc.keep x t f h.1, HasAll.cont hc h.2⟩
  | [], _ :: _, _, h => h.elim
  | [], [], _ :: _, h => h.elim
  | _ :: _, [], _, h => h.elim
  | _ :: _, _ :: _, [], h => h.elim

theorem HasAll.pick {N : Nat} {b : Bld V T} {σ : Nat → List (LV V)} :
    ∀ {xs ts fs}, HasAll N b σ xs ts fs → Simp.pick b.tys xs = some ts ∧
      ∀ p, p < N → Simp.pick (σ p) xs = some (fs.map (fun f => f p))
  | [], [], [], _ => ⟨rfl, fun _ _ => rfl⟩
  | x :: xs, t :: ts, f :: fs, h => by
    obtain ⟨h1, h2⟩ := HasAll.pick h.2
    exact ⟨by simp [Simp.pick, h.1.ty, h1], fun p hp => by simp [Simp.pick, h.1.val p hp, h2 p hp]⟩
  | [], _ :: _, _, h => h.elim
  | [], [], _ :: _, h => h.elim
  | _ :: _, [], _, h => h.elim
  | _ :: _, _ :: _, [], h => h.elim

/-- A converge of values on disjoint parties. -/
theorem converge_build (tr : V → Bool) {N : Nat} {b : Bld V T} {σ : Nat → List (LV V)} (hlen : ∀ p, p < N → (σ p).length = b.tys.length)
    {xs : List Nat} {ts : List (Ty T)} {fs : List (Nat → LV V)} (h : HasAll N b σ xs ts fs) {t : Ty T} (ht : convergeTy ts = some t) :
    ∃ y b' σ', converge xs b = some (y, b') ∧ Cont tr N b σ b' σ' ∧ Has N b' σ' y t (fun p => firstHeld (fs.map (fun f => f p))) := by
  obtain ⟨h1, h2⟩ := h.pick
  have hev : Ev tr N (.op (.converge xs : Op V T)) σ (fun p => [firstHeld (fs.map (fun f => f p))]) :=
    .converge xs σ _ (fun p => fs.map (fun f => f p)) h2 (fun p _ => rfl)
  have hty : opTy false (.converge xs : Op V T) b.tys = some [t] := by
    simp [opTy, h1, ht]
  refine ⟨b.tys.length + 0, _, _, ?_, emit_cont (ts := [t]) hev (fun p _ => rfl), emit_has hlen 0 _ _ rfl (fun p _ => rfl)⟩
  simp [converge, emit, hty, single, List.range_succ]

end
end Verif.Simp
