import Verif.Jax.RunMain
/-! A library meeting the contract of C90, and cases that meet the hypotheses of its theorems. -/
namespace Verif.Jax
open Verif.Serde Verif.Tensor Classical

/-- array of numbers -/
abbrev A := Arr Nat
/-- user function -/
abbrev Fn := List A → Option (List A)

/-- output types that the function's results have -/
def OutsOk (x64 : Bool) (f : Fn) (phs : List PH) (outs : List (String × List (Option Nat))) : Prop :=
  (∃ ts, outTys outs = .ok ts) ∧ ∀ args r, Admits x64 phs args → f args = some r →
    List.Forall₂ (fun (o : String × List (Option Nat)) (a : A) => a.dtype = o.1 ∧
      List.Forall₂ (fun (d : Option Nat) n => ∀ m, d = some m → n = m) o.2 a.shape) outs r

/-- the function does not look at the first of its two arguments -/
def IgnoresFirst (x64 : Bool) (f : Fn) (phs : List PH) : Prop :=
  hasSym phs = false ∧ phs.length = 2 ∧ ∀ args args', Admits x64 phs args → Admits x64 phs args' → pick [1] args = pick [1] args' → f args = f args'

/-- kept arguments -/
noncomputable def keptOf (x64 : Bool) (f : Fn) (phs : List PH) : List Nat :=
  if IgnoresFirst x64 f phs then [1] else List.range phs.length

/-- module: function, placeholders, refined types -/
abbrev TCode := Fn × List PH × Option (List (List Char))

/-- running a module -/
noncomputable def toyRun (x64 : Bool) (c : TCode) (ys : List A) : Option (List A) :=
  match c.2.2 with
  | none => if h : ∃ args, Admits x64 c.2.1 args ∧ pick (keptOf x64 c.1 c.2.1) args = some ys then c.1 (choose h) else none
  | some ts => if Admits x64 c.2.1 ys ∧ ys.map mlirType = ts.map some then c.1 ys else none

/-- the toy library -/
noncomputable def toy (x64 : Bool) : JaxLib Nat TCode TCode TCode TCode where
  x64 := x64
  conv := fun _ _ x => x
  num := fun _ => none
  exportFn := fun f phs => if h : ∃ outs, OutsOk x64 f phs outs then some ⟨(f, phs, none), keptOf x64 f phs, choose h⟩ else none
  refine := fun c ts => if ∃ args : List A, Admits x64 c.2.1 args ∧ args.map mlirType = ts.map some then some (c.1, c.2.1, some ts) else none
  compile := some
  run := toyRun x64
  ser := fun x => [x]
  de := fun l => l.head?
  hash := id

theorem toy_export {x64 : Bool} {f : Fn} {phs : List PH} {e : Export TCode} (h : (toy x64).exportFn f phs = some e) :
    e.code = (f, phs, none) ∧ e.kept = keptOf x64 f phs ∧ OutsOk x64 f phs e.outs := by
  simp only [toy] at h
  split at h
  · next hx =>
    simp only [Option.some.injEq] at h
    subst h
    exact ⟨rfl, rfl, choose_spec hx⟩
  · simp at h

theorem admits_pick {x64 : Bool} {phs ps : List PH} {args ys : List A} {ks : List Nat} (h : Admits x64 phs args)
    (hp : pick ks phs = some ps) (hy : pick ks args = some ys) : Admits x64 ps ys := by
  obtain ⟨σ, h0, hf⟩ := h
  refine ⟨σ, h0, ?_⟩
  unfold pick at hp hy
  induction ks generalizing ps ys with
  | nil => simp at hp hy; subst hp; subst hy; exact .nil
  | cons k ks ih =>
    simp only [List.mapM_cons, Option.bind_eq_bind, Option.pure_def] at hp hy
    cases h1 : phs[k]? with
    | none => simp [h1] at hp
    | some p =>
      cases h2 : args[k]? with
      | none => simp [h2] at hy
      | some a =>
        cases h3 : ks.mapM (fun k => phs[k]?) with
        | none => simp [h1, h3] at hp
        | some ps' =>
          cases h4 : ks.mapM (fun k => args[k]?) with
          | none => simp [h2, h4] at hy
          | some ys' =>
            simp only [h1, h3, Option.bind_some, Option.some.injEq] at hp
            simp only [h2, h4, Option.bind_some, Option.some.injEq] at hy
            subst hp; subst hy
            refine .cons ?_ (ih h3 h4)
            have hlt := (List.getElem?_eq_some_iff.1 h1).1
            have := List.forall₂_iff_get.1 hf
            have hr := this.2 k hlt (by have := this.1; omega)
            simp only [List.get_eq_getElem] at hr
            rw [List.getElem?_eq_some_iff] at h1 h2
            obtain ⟨_, rfl⟩ := h1
            obtain ⟨_, rfl⟩ := h2
            exact hr

theorem toy_ok (x64 : Bool) : (toy x64).Ok where
  conv_self := fun _ _ => rfl
  kept_lt := by
    intro f phs e h k hk
    rw [(toy_export h).2.1] at hk
    unfold keptOf at hk
    split at hk
    · next hi => simp at hk; subst hk; have := hi.2.1; omega
    · simpa using hk
  kept_len := by
    intro f phs e h
    rw [(toy_export h).2.1]
    unfold keptOf
    split
    · next hi => have := hi.2.1; simp [this]
    · simp
  kept_all := by
    intro f phs e h hl
    rw [(toy_export h).2.1] at hl ⊢
    unfold keptOf at hl ⊢
    split
    · next hi => rw [if_pos hi] at hl; have := hi.2.1; simp at hl; omega
    · rfl
  kept_sym := by
    intro f phs e h hs
    rw [(toy_export h).2.1]
    unfold keptOf
    rw [if_neg]
    rintro ⟨h1, _⟩
    rw [hs] at h1
    simp at h1
  text := by
    intro f phs e f' phs' e' h h' hc
    rw [(toy_export h).1, (toy_export h').1] at hc
    simp only [Prod.mk.injEq] at hc
    rw [hc.2.1]
  static := by
    intro f phs e h hs
    obtain ⟨hc, hk, _⟩ := toy_export h
    refine ⟨e.code, rfl, ?_, ?_⟩
    · intro args ys ha hp
      rw [hc]
      rw [hk] at hp
      change toyRun x64 (f, phs, none) ys = f args
      simp only [toyRun]
      have hex : ∃ args, Admits x64 phs args ∧ pick (keptOf x64 f phs) args = some ys := ⟨args, ha, hp⟩
      rw [dif_pos hex]
      have hch := choose_spec hex
      by_cases hi : IgnoresFirst x64 f phs
      · refine hi.2.2 _ _ hch.1 ha ?_
        have h1 := hch.2
        simp only [keptOf, if_pos hi] at h1 hp
        rw [hp]
        convert h1 using 3
        simp [keptOf, if_pos hi]
      · have hlen : ∀ b : List A, Admits x64 phs b → b.length = phs.length := fun b ⟨_, _, hb⟩ => hb.length_eq.symm
        have key : ∀ b : List A, Admits x64 phs b → pick (keptOf x64 f phs) b = some b := by
          intro b hb
          simp only [keptOf, if_neg hi]
          rw [← hlen b hb]
          exact pick_range b
        have h1 := hch.2
        have h2 := key _ hch.1
        rw [key _ ha] at hp
        have : some (choose hex) = some args := by rw [← h2, h1, ← hp]
        rw [Option.some.inj this]
    · intro ps ys hps hn
      rw [hc]
      change toyRun x64 (f, phs, none) ys = none
      simp only [toyRun]
      rw [dif_neg]
      rintro ⟨args, ha, hy⟩
      rw [← hk] at hy
      exact hn (admits_pick ha hps hy)
  refines := by
    intro f phs e h hs ts
    rw [(toy_export h).1]
    simp only [toy]
    constructor
    · rintro ⟨c, hc⟩
      split at hc
      · next hx => exact hx
      · simp at hc
    · intro hx
      exact ⟨_, if_pos hx⟩
  refined := by
    intro f phs e h hs ts c hr
    rw [(toy_export h).1] at hr
    simp only [toy] at hr
    split at hr
    · simp only [Option.some.injEq] at hr
      subst hr
      refine ⟨_, rfl, ?_, ?_⟩
      · intro args ha ht
        change toyRun x64 (f, phs, some ts) args = f args
        simp only [toyRun]
        rw [if_pos ⟨ha, ht⟩]
      · intro args hn
        change toyRun x64 (f, phs, some ts) args = none
        simp only [toyRun]
        rw [if_neg (fun hh => hn hh.2)]
    · simp at hr
  de_ser := fun _ => rfl
  de_prefix := by
    intro x n y h
    cases n with
    | zero => simp [toy] at h
    | succ n => simp [toy] at h; exact h.symm
  outs := by
    intro f phs e h args r ha hf
    exact (toy_export h).2.2.2 args r ha hf

/-- the second argument, doubled -/
def dbl : Fn
  | [_, b] => some [⟨b.dtype, b.shape, 2 * b.data⟩]
  | _ => none

/-- first argument plus the second -/
def add : Fn
  | [a, b] => if a.shape = b.shape then some [⟨b.dtype, b.shape, a.data + b.data⟩] else none
  | _ => none

/-- `f32[3], f32[3]` -/
def tys3 : List Ty := [.tensor (.float 32) [3], .tensor (.float 32) [3]]
/-- `f32[?], f32[?]` -/
def tysN : List Ty := [.tensor (.float 32) [-1], .tensor (.float 32) [-1]]

theorem ph3 : placeholders none 0 tys3 = .ok [⟨"float32", [.lit 3]⟩, ⟨"float32", [.lit 3]⟩] := by rfl
theorem phN : placeholders none 0 tysN = .ok [⟨"float32", [.sym "n_rows"]⟩, ⟨"float32", [.sym "n_rows"]⟩] := by rfl

theorem canon32 (x64 : Bool) : canon x64 "float32" = "float32" := by cases x64 <;> decide +kernel

theorem outs3 (x64 : Bool) (f : Fn) (hf : f = dbl ∨ f = add) :
    OutsOk x64 f [⟨"float32", [.lit 3]⟩, ⟨"float32", [.lit 3]⟩] [("float32", [some 3])] := by
  refine ⟨⟨[.tensor (.float 32) [3]], by rfl⟩, ?_⟩
  rintro args r ⟨σ, _, ha⟩ h
  cases ha with
  | cons h1 h2 =>
    cases h2 with
    | cons h3 h4 =>
      cases h4
      rw [Fits, canon32] at h1 h3
      obtain ⟨h3, h3'⟩ := h3
      rcases hf with rfl | rfl
      · simp only [dbl, Option.some.injEq] at h
        subst h
        simp [h3, h3', PDim.eval]
      · simp only [add] at h
        split at h
        · simp only [Option.some.injEq] at h
          subst h
          simp [h3, h3', PDim.eval]
        · simp at h

theorem outsN (x64 : Bool) :
    OutsOk x64 add [⟨"float32", [.sym "n_rows"]⟩, ⟨"float32", [.sym "n_rows"]⟩] [("float32", [none])] := by
  refine ⟨⟨[.tensor (.float 32) [-1]], by rfl⟩, ?_⟩
  rintro args r ⟨σ, _, ha⟩ h
  cases ha with
  | cons h1 h2 =>
    cases h2 with
    | cons h3 h4 =>
      cases h4
      rw [Fits, canon32] at h1 h3
      obtain ⟨h3, h3'⟩ := h3
      simp only [add] at h
      split at h
      · simp only [Option.some.injEq] at h
        subst h
        simp [h3, h3']
      · simp at h

theorem toy_traced {x64 : Bool} {f : Fn} {tys : List Ty} {phs : List PH} (hp : placeholders none 0 tys = .ok phs)
    (ho : ∃ outs, OutsOk x64 f phs outs) (n : Nat) : ∃ op, traceRun (toy x64) n none f tys = some (op, n + 1) := by
  unfold traceRun
  rw [hp]
  have : ∃ e, (toy x64).exportFn f phs = some e := ⟨_, by simp only [toy]; exact dif_pos ho⟩
  obtain ⟨e, he⟩ := this
  obtain ⟨ts, hts⟩ := (toy_export he).2.2.1
  simp only [he, hts]
  exact ⟨_, rfl⟩

/-- three elements -/
def v3 (x : Nat) : A := ⟨"float32", [3], x⟩

theorem typed3 (x64 : Bool) (x y : Nat) : WellTyped x64 none tys3 [v3 x, v3 y] :=
  (admits_iff ph3 _).1 ⟨fun _ => 1, fun _ => by simp, .cons ⟨(canon32 x64).symm, rfl⟩ (.cons ⟨(canon32 x64).symm, rfl⟩ .nil)⟩

theorem typedN (x64 : Bool) (x y : Nat) : WellTyped x64 none tysN [v3 x, v3 y] :=
  (admits_iff phN _).1 ⟨fun _ => 3, fun _ => by simp, .cons ⟨(canon32 x64).symm, rfl⟩ (.cons ⟨(canon32 x64).symm, rfl⟩ .nil)⟩

/-- `run_jax_result_partial`, `run_jax_output_types_partial`: a function that ignores an argument, static shapes -/
example : ∃ op, traceRun (toy false) 4 none dbl tys3 = some (op, 5) ∧ op.keep = some [1] ∧
    (call (toy false) Caches.empty 0 0 op [v3 7, v3 5]).1 = some [v3 10] := by
  obtain ⟨op, h⟩ := toy_traced (x64 := false) ph3 ⟨_, outs3 false dbl (.inl rfl)⟩ 4
  have hd : op.dyn = false := by obtain ⟨phs, e, outs, hp, _, _, _, rfl⟩ := traceRun_ok h; rw [ph3] at hp; cases hp; rfl
  refine ⟨op, h, ?_, ?_⟩
  · obtain ⟨phs, e, outs, hp, he, _, _, rfl⟩ := traceRun_ok h
    rw [ph3] at hp
    cases hp
    have hk := (toy_export he).2.1
    have hi : IgnoresFirst false dbl [⟨"float32", [.lit 3]⟩, ⟨"float32", [.lit 3]⟩] := by
      refine ⟨rfl, rfl, ?_⟩
      rintro args args' ⟨_, _, ha⟩ ⟨_, _, hb⟩ hp
      cases ha with
      | cons _ h2 =>
        cases h2 with
        | cons _ h4 =>
          cases h4
          cases hb with
          | cons _ h2' =>
            cases h2' with
            | cons _ h4' =>
              cases h4'
              simp [pick] at hp
              simp [dbl, hp]
    rw [keptOf, if_pos hi] at hk
    simp [hk]
  · rw [run_jax_result_partial (toy_ok false) h (typed3 false 7 5) (by simp [hd])]
    rfl

/-- unknown sizes: equal lengths work, different lengths are refused (`dynamic_result_iff`, `unknown_sizes_violated`) -/
example : ∃ op, traceRun (toy true) 0 none add tysN = some (op, 1) ∧ op.dyn = true ∧
    (call (toy true) Caches.empty 0 0 op [v3 7, v3 5]).1 = some [v3 12] ∧
    (call (toy true) Caches.empty 0 0 op [⟨"float32", [3], 7⟩, ⟨"float32", [4], 5⟩]).1 = none := by
  obtain ⟨op, h⟩ := toy_traced (x64 := true) phN ⟨_, outsN true⟩ 0
  have hd : op.dyn = true := by obtain ⟨phs, e, outs, hp, _, _, _, rfl⟩ := traceRun_ok h; rw [phN] at hp; cases hp; rfl
  refine ⟨op, h, hd, ?_, unknown_sizes_violated (toy_ok true) h 3 4 (by decide) 7 5⟩
  rw [run_jax_result_partial (toy_ok true) h (typedN true 7 5) (fun _ a ha => ?_)]
  · rfl
  · simp only [List.mem_cons, List.not_mem_nil, or_false] at ha
    rcases ha with rfl | rfl <;> exact ⟨by decide, by decide⟩

/-- caches: two functions, a crash while storing, another process reading the damaged file (`run_jax_history`) -/
example : ∃ op op' : Op TCode, Distinct (toy true) (fun o => o = op ∨ o = op') ∧ op.dyn = false ∧ op'.dyn = true ∧
    (call (toy true) (after (toy true) Caches.empty
      [.call 0 0 op' [v3 1, v3 1], .crash 0 0 op [v3 1, v3 2] 0, .call 1 0 op [v3 1, v3 1], .restart 1]) 1 0 op [v3 7, v3 5]).1 =
      some [v3 12] := by
  obtain ⟨op, h⟩ := toy_traced (x64 := true) ph3 ⟨_, outs3 true add (.inr rfl)⟩ 0
  obtain ⟨op', h'⟩ := toy_traced (x64 := true) phN ⟨_, outsN true⟩ 1
  have hd : op.dyn = false := by obtain ⟨phs, e, outs, hp, _, _, _, rfl⟩ := traceRun_ok h; rw [ph3] at hp; cases hp; rfl
  have hd' : op'.dyn = true := by obtain ⟨phs, e, outs, hp, _, _, _, rfl⟩ := traceRun_ok h'; rw [phN] at hp; cases hp; rfl
  have hS : Distinct (toy true) (fun o => o = op ∨ o = op') := by
    refine ⟨?_, fun _ _ _ _ hh => hh⟩
    rintro o (rfl | rfl)
    · exact ⟨_, _, _, _, _, h⟩
    · exact ⟨_, _, _, _, _, h'⟩
  refine ⟨op, op', hS, hd, hd', ?_⟩
  rw [run_jax_history (toy_ok true) hS _ _ op (.inl rfl), run_jax_result_partial (toy_ok true) h (typed3 true 7 5) (by simp [hd])]
  · rfl
  · intro e he o ho
    simp only [List.mem_cons, List.not_mem_nil, or_false] at he
    rcases he with rfl | rfl | rfl | rfl <;> simp [Ev.op?] at ho <;> simp [ho]

/-- conversion: a `float64` value for an `f32` tensor (`run_jax_converts`) -/
example : ∃ op, traceRun (toy true) 0 none add tys3 = some (op, 1) ∧
    (call (toy true) Caches.empty 0 0 op [⟨"float64", [3], 7⟩, v3 5]).1 = some [v3 12] := by
  obtain ⟨op, h⟩ := toy_traced (x64 := true) ph3 ⟨_, outs3 true add (.inr rfl)⟩ 0
  have hd : op.dyn = false := by obtain ⟨phs, e, outs, hp, _, _, _, rfl⟩ := traceRun_ok h; rw [ph3] at hp; cases hp; rfl
  have hcv : List.zipWith (converted (toy true)) tys3 [⟨"float64", [3], 7⟩, v3 5] = [v3 7, v3 5] := by rfl
  refine ⟨op, h, ?_⟩
  rw [run_jax_converts (toy_ok true) rfl h hd rfl (by simp [v3]) (by rw [hcv]; exact typed3 true 7 5), hcv]
  rfl

/-- shape check: a fourth element is refused (`static_shape_checked`) -/
example : ∃ op, traceRun (toy true) 0 none add tys3 = some (op, 1) ∧ op.keep = none := by
  obtain ⟨op, h⟩ := toy_traced (x64 := true) ph3 ⟨_, outs3 true add (.inr rfl)⟩ 0
  refine ⟨op, h, ?_⟩
  obtain ⟨phs, e, outs, hp, he, _, _, rfl⟩ := traceRun_ok h
  rw [ph3] at hp
  cases hp
  have hk := (toy_export he).2.1
  have hi : ¬ IgnoresFirst true add [⟨"float32", [.lit 3]⟩, ⟨"float32", [.lit 3]⟩] := by
    rintro ⟨_, _, h⟩
    have h1 : ∀ x y, Admits true [⟨"float32", [.lit 3]⟩, ⟨"float32", [.lit 3]⟩] [v3 x, v3 y] := fun x y => (admits_iff ph3 _).2 (typed3 true x y)
    have := h [v3 0, v3 0] [v3 1, v3 0] (h1 0 0) (h1 1 0) rfl
    simp [add, v3] at this
  rw [keptOf, if_neg hi] at hk
  simp [hk]

end Verif.Jax
