import Verif.Jax.RunProps
/-! C90: results of `tensor.run_jax`. -/
namespace Verif.Jax
open Verif.Serde Verif.Tensor

variable {D Code Exe H B : Type}

theorem placeholders_length {names : Option (List (List (Option String)))} :
    ∀ (tys : List Ty) (i : Nat) (phs : List PH), placeholders names i tys = .ok phs → phs.length = tys.length
  | [], i, phs, h => by simp only [placeholders, Except.ok.injEq] at h; simp [← h]
  | t :: r, i, phs, h => by
    obtain ⟨p, ps, rfl, _, hps⟩ := placeholders_cons h
    simp [placeholders_length r (i + 1) ps hps]

theorem pick_range {α : Type} (l : List α) : pick (List.range l.length) l = some l := by
  unfold pick
  have : ∀ (n : Nat) (k : Nat), k + n = l.length → (List.range' k n).mapM (fun i => l[i]?) = some (l.drop k) := by
    intro n
    induction n with
    | zero => intro k hk; simp [List.drop_eq_nil_of_le (show l.length ≤ k by omega)]
    | succ n ih =>
      intro k hk
      have hlt : k < l.length := by omega
      simp only [List.range'_succ, List.mapM_cons, List.getElem?_eq_getElem hlt, ih (k + 1) (by omega),
        Option.bind_eq_bind, Option.bind_some, Option.pure_def]
      rw [← List.drop_eq_getElem_cons hlt]
  have h := this l.length 0 (by omega)
  rwa [List.drop_zero, ← List.range_eq_range'] at h

theorem pick_total {α : Type} {l : List α} : ∀ (ks : List Nat), (∀ k ∈ ks, k < l.length) → ∃ ys, pick ks l = some ys
  | [], _ => ⟨[], rfl⟩
  | k :: ks, h => by
    obtain ⟨ys, hy⟩ := pick_total ks (fun j hj => h j (by simp [hj]))
    unfold pick at hy ⊢
    exact ⟨l[k]'(h k (by simp)) :: ys, by simp [hy, List.getElem?_eq_getElem (h k (by simp))]⟩

theorem typed_known {x64 : Bool} {names : Option (List (List (Option String)))} {σ : String → Nat} {i : Nat} {t : Ty} {a : Arr D}
    (h : HasType x64 names σ i t a) : a.dtype ∈ knownDtypes := by
  have key : ∀ (u : Ty) (d : String), toJax u = .ok d → a.dtype = canon x64 d → a.dtype ∈ knownDtypes := by
    intro u d hj ha
    rw [to_jax_iff] at hj
    have : d ∈ (scalarTable ++ extraTable).map Prod.snd := List.mem_map.2 ⟨_, hj, rfl⟩
    rw [ha]
    revert this
    generalize d = e
    revert e
    cases x64 <;> decide +kernel
  unfold HasType at h
  split at h
  · obtain ⟨⟨d, hj, ha⟩, _⟩ := h; exact key _ d hj ha
  · obtain ⟨⟨d, hj, ha⟩, _⟩ := h; exact key _ d hj ha

/-- dtype that `_make_tensor_type` writes the way MLIR does -/
def Plain (a : Arr D) : Prop := a.dtype ≠ "complex64" ∧ a.dtype ≠ "complex128"

theorem map_types {args args' : List (Arr D)} (hk : ∀ a ∈ args, a.dtype ∈ knownDtypes) :
    args'.map mlirType = (args.map makeTensorType).map some ↔
      List.Forall₂ (fun b a : Arr D => b.shape = a.shape ∧ b.dtype = a.dtype ∧
        a.dtype ≠ "complex64" ∧ a.dtype ≠ "complex128" ∧ a.dtype ≠ "object") args' args := by
  induction args generalizing args' with
  | nil => cases args' <;> simp
  | cons a args ih =>
    cases args' with
    | nil => simp
    | cons b args' =>
      simp only [List.map_cons, List.cons.injEq, List.forall₂_cons]
      rw [type_string_iff (hk a (by simp)), ih (fun c hc => hk c (by simp [hc]))]

theorem execute_keep {L : JaxLib D Code Exe H B} (hok : L.Ok) {n : Nat} {names : Option (List (List (Option String)))}
    {f : List (Arr D) → Option (List (Arr D))} {tys : List Ty} {op : Op Code} {m : Nat} (h : traceRun L n names f tys = some (op, m))
    {args : List (Arr D)} (hw : WellTyped L.x64 names tys args) : castArgs L op.inputs args = some args := by
  obtain ⟨phs, e, outs, hp, he, ho, _, rfl⟩ := traceRun_ok h
  obtain ⟨hl, σ, _, hk⟩ := hw
  exact castArgs_keep hok (names := names) (σ := σ) tys args 0 hl (by simpa only [Nat.zero_add] using hk)

/-- what the executable computes, on arguments that fit after the guard, when there are no unknown dimensions -/
theorem static_result {L : JaxLib D Code Exe H B} (hok : L.Ok) {n : Nat} {names : Option (List (List (Option String)))}
    {f : List (Arr D) → Option (List (Arr D))} {tys : List Ty} {op : Op Code} {m : Nat} (h : traceRun L n names f tys = some (op, m))
    (hd : op.dyn = false) {args vs : List (Arr D)} (hc : castArgs L tys args = some vs) (hw : WellTyped L.x64 names tys vs) :
    (call L Caches.empty 0 0 op args).1 = f vs := by
  rw [call_empty]
  obtain ⟨phs, e, outs, hp, he, ho, _, rfl⟩ := traceRun_ok h
  have hd : hasSym phs = false := hd
  have ha := (admits_iff hp vs).2 hw
  obtain ⟨x, hx, hrun, _⟩ := hok.static f phs e he hd
  have hlen : vs.length = phs.length := by rw [hw.1, placeholders_length tys 0 phs hp]
  simp only [compileFor, hd, Bool.false_eq_true, if_false, hx, Option.bind_some, execute, hc]
  by_cases hlt : e.kept.length < phs.length
  · rw [if_pos hlt]
    simp only []
    obtain ⟨ys, hy⟩ := pick_total (l := vs) e.kept (by rw [hlen]; exact hok.kept_lt f phs e he)
    rw [hy]
    simp only []
    exact hrun vs ys ha hy
  · rw [if_neg hlt]
    simp only []
    have hkept := hok.kept_all f phs e he (by have := hok.kept_len f phs e he; omega)
    exact hrun vs vs ha (by rw [hkept, ← hlen]; exact pick_range vs)

theorem placeDims_sym {names : Option (List (List (Option String)))} {i : Nat} : ∀ (shape : List Int) (idx : Nat) (dims : List PDim),
    placeDims names i idx shape = .ok dims → ((dims.any fun d => match d with | .lit _ => false | .sym _ => true) = true ↔ (-1 : Int) ∈ shape)
  | [], _, dims, h => by
    cases h; simp
  | d :: r, idx, dims, h => by
    simp only [placeDims, bind, Except.bind, pure, Except.pure] at h
    split at h
    · cases h
    next x hx =>
      split at h
      · cases h
      next xs hxs =>
        cases h
        have ih := placeDims_sym r (idx + 1) xs hxs
        rw [List.any_cons, Bool.or_eq_true, ih, List.mem_cons]
        unfold placeDim at hx
        split at hx
        · cases hx
        · split at hx
          next h1 =>
            cases hs : symbolicName names i idx with
            | error e => rw [hs] at hx; cases hx
            | ok s => rw [hs] at hx; cases hx; simp [h1]
          next h1 =>
            cases hx
            simp [show ¬ (-1 : Int) = d from fun h => h1 h.symm]

theorem placeholders_sym {names : Option (List (List (Option String)))} : ∀ (tys : List Ty) (i : Nat) (phs : List PH),
    placeholders names i tys = .ok phs → (hasSym phs = true ↔ ∃ t ∈ tys, ∃ elem shape, plainTy t = .tensor elem shape ∧ (-1 : Int) ∈ shape)
  | [], _, phs, h => by
    cases h; simp [hasSym]
  | t :: r, i, phs, h => by
    simp only [placeholders, bind, Except.bind, pure, Except.pure] at h
    split at h
    · cases h
    next p hp =>
      split at h
      · cases h
      next ps hps =>
        cases h
        have ih := placeholders_sym r (i + 1) ps hps
        have hh : (hasSym (p :: ps) = true) ↔ ((p.dims.any fun d => match d with | .lit _ => false | .sym _ => true) = true ∨ hasSym ps = true) := by
          rw [hasSym, List.any_cons, Bool.or_eq_true]; exact Iff.rfl
        have hone : (p.dims.any fun d => match d with | .lit _ => false | .sym _ => true) = true ↔
            ∃ elem shape, plainTy t = .tensor elem shape ∧ (-1 : Int) ∈ shape := by
          unfold placeholder at hp
          split at hp
          next elem shape ht =>
            split at hp
            · simp only [bind, Except.bind, pure, Except.pure] at hp
              split at hp
              · cases hp
              next dims hd =>
                split at hp
                · cases hp
                · cases hp
                  rw [placeDims_sym shape 0 dims hd]
                  constructor
                  · intro h; exact ⟨elem, shape, ht, h⟩
                  · rintro ⟨e, s, h1, h2⟩
                    rw [ht] at h1; cases h1; exact h2
            · cases hp
          next ht =>
            have hno : ¬ ∃ elem shape, plainTy t = .tensor elem shape ∧ (-1 : Int) ∈ shape := by
              rintro ⟨e, s, h1, _⟩
              exact ht e s h1
            refine ⟨fun h => absurd h ?_, fun h => absurd h hno⟩
            split at hp
            · cases hj : toJax (plainTy t) with
              | error e => rw [hj] at hp; cases hp
              | ok d => rw [hj] at hp; cases hp; simp
            · cases hp
        rw [hh, hone, ih]
        simp only [List.mem_cons, exists_eq_or_imp]

/-- **C90** (dynamic shapes) An operation is marked as having dynamic shapes exactly if the type of an argument has an unknown dimension. -/
theorem dynamic_iff {L : JaxLib D Code Exe H B} {n : Nat} {names : Option (List (List (Option String)))}
    {f : List (Arr D) → Option (List (Arr D))} {tys : List Ty} {op : Op Code} {m : Nat} (h : traceRun L n names f tys = some (op, m)) :
    op.dyn = true ↔ ∃ t ∈ tys, ∃ elem shape, plainTy t = .tensor elem shape ∧ (-1 : Int) ∈ shape := by
  obtain ⟨phs, e, outs, hp, he, ho, _, rfl⟩ := traceRun_ok h
  exact placeholders_sym tys 0 phs hp

/-- **C90** (result) Called on arguments of the declared types, `run_jax` returns what the function returns on them, and raises
exactly if it does, whatever the caches hold (`run_jax_history`); functions that ignore some of their arguments included.
Missing: complex arguments together with unknown dimensions (`dynamic_complex_violated`), and unknown dimensions whose sizes differ
although nothing says they are equal (`unknown_sizes_violated`). -/
theorem run_jax_result_partial {L : JaxLib D Code Exe H B} (hok : L.Ok) {n : Nat} {names : Option (List (List (Option String)))}
    {f : List (Arr D) → Option (List (Arr D))} {tys : List Ty} {op : Op Code} {m : Nat} (h : traceRun L n names f tys = some (op, m))
    {args : List (Arr D)} (hw : WellTyped L.x64 names tys args) (hc : op.dyn = true → ∀ a ∈ args, Plain a) :
    (call L Caches.empty 0 0 op args).1 = f args := by
  have hcast := execute_keep hok h hw
  cases hd : op.dyn with
  | false =>
    obtain ⟨phs, e, outs, hp, he, ho, _, rfl⟩ := traceRun_ok h
    exact static_result hok h hd hcast hw
  | true =>
    have hpl : ∀ a ∈ args, Plain a := hc hd
    rw [call_empty]
    obtain ⟨phs, e, outs, hp, he, ho, _, rfl⟩ := traceRun_ok h
    have hd : hasSym phs = true := hd
    have ha := (admits_iff hp args).2 hw
    have hknown : ∀ a ∈ args, a.dtype ∈ knownDtypes ∧ a.dtype ≠ "object" := by
      intro a hm
      obtain ⟨hl, σ, _, hk⟩ := hw
      obtain ⟨i, hi⟩ := List.getElem?_of_mem hm
      have hlt : i < tys.length := by
        rw [← hl]
        exact (List.getElem?_eq_some_iff.1 hi).1
      have ht := hk i tys[i] a (List.getElem?_eq_getElem hlt) hi
      refine ⟨typed_known ht, ?_⟩
      unfold HasType at ht
      split at ht
      · obtain ⟨⟨d, hj, hd⟩, _⟩ := ht; rw [hd]; exact toJax_ne_object hj _
      · obtain ⟨⟨d, hj, hd⟩, _⟩ := ht; rw [hd]; exact toJax_ne_object hj _
    have hts : args.map mlirType = (args.map makeTensorType).map some := by
      rw [map_types (fun a hm => (hknown a hm).1), List.forall₂_same]
      intro a hm
      exact ⟨rfl, rfl, (hpl a hm).1, (hpl a hm).2, (hknown a hm).2⟩
    obtain ⟨c, hr⟩ := (hok.refines f phs e he hd _).2 ⟨args, ha, hts⟩
    obtain ⟨x, hx, hrun, _⟩ := hok.refined f phs e he hd _ c hr
    have hkept := hok.kept_sym f phs e he hd
    have hcast : castArgs L tys args = some args := hcast
    simp only [compileFor, hd, if_true, hr, hx, Option.bind_some, execute, hcast, hkept, List.length_range]
    rw [if_neg (Nat.lt_irrefl _)]
    exact hrun args ha hts

/-- a tensor value converted to the element type of its declared type, the rest unchanged -/
def converted (L : JaxLib D Code Exe H B) (t : Ty) (a : Arr D) : Arr D :=
  match t with
  | .tensor elem _ =>
    match toJax elem with
    | .ok d => ⟨d, a.shape, L.conv a.dtype d a.data⟩
    | .error _ => a
  | _ => a

theorem castArgs_converted {L : JaxLib D Code Exe H B} (hok : L.Ok) (hx : L.x64 = true) :
    ∀ (tys : List Ty) (args : List (Arr D)), args.length = tys.length → (∀ a ∈ args, a.dtype ≠ "object") →
      (∀ t ∈ tys, ∀ e s, t = .tensor e s → ∃ d, toJax e = .ok d) →
      castArgs L tys args = some (List.zipWith (converted L) tys args)
  | [], [], _, _, _ => rfl
  | t :: ts, a :: as, hl, ho, hj => by
    have ih := castArgs_converted hok hx ts as (by simpa using hl) (fun b hb => ho b (by simp [hb])) (fun u hu => hj u (by simp [hu]))
    have ha : asJax L a = some a := by
      unfold asJax
      rw [if_neg (ho a (by simp))]
      simp [astype, canon, hx, hok.conv_self]
    have h0 : castArg L t a = some (converted L t a) := by
      cases t with
      | tensor e s =>
        obtain ⟨d, hd⟩ := hj (.tensor e s) (by simp) e s rfl
        simp only [castArg, converted, hd, ha, Option.map_some, Option.some.injEq]
        split
        · simp [astype, canon, hx]
        · next h =>
          have h : a.dtype = d := by simpa using h
          subst h
          simp [hok.conv_self]
      | _ => simpa [castArg, converted] using ha
    simp [castArgs, h0, ih]
  | [], _ :: _, hl, _, _ => by simp at hl
  | _ :: _, [], hl, _, _ => by simp at hl

theorem placeholders_tensor {names : Option (List (List (Option String)))} :
    ∀ (tys : List Ty) (i : Nat) (phs : List PH), placeholders names i tys = .ok phs → ∀ t ∈ tys, ∀ e s, t = .tensor e s → ∃ d, toJax e = .ok d
  | [], _, _, _, _, ht, _, _, _ => by simp at ht
  | t :: r, i, phs, h, u, hu, e, s, he => by
    obtain ⟨p, ps, rfl, hp, hps⟩ := placeholders_cons h
    rcases List.mem_cons.1 hu with rfl | hu
    · subst he
      simp only [placeholder, plainTy] at hp
      split at hp
      · simp only [bind, Except.bind] at hp
        split at hp
        · simp at hp
        · split at hp
          · simp at hp
          · next d hd => exact ⟨d, hd⟩
      · simp at hp
    · exact placeholders_tensor r (i + 1) ps hps u hu e s he

/-- **C90** (conversion) Without unknown dimensions, a numeric tensor argument of another dtype is converted to the declared one:
`run_jax` returns what the function returns on the converted arguments. -/
theorem run_jax_converts {L : JaxLib D Code Exe H B} (hok : L.Ok) (hx : L.x64 = true) {n : Nat}
    {names : Option (List (List (Option String)))} {f : List (Arr D) → Option (List (Arr D))} {tys : List Ty} {op : Op Code} {m : Nat}
    (h : traceRun L n names f tys = some (op, m)) (hd : op.dyn = false) {args : List (Arr D)} (hl : args.length = tys.length)
    (ho : ∀ a ∈ args, a.dtype ≠ "object") (hw : WellTyped L.x64 names tys (List.zipWith (converted L) tys args)) :
    (call L Caches.empty 0 0 op args).1 = f (List.zipWith (converted L) tys args) := by
  obtain ⟨phs, e, outs, hp, he, hou, _, rfl⟩ := traceRun_ok h
  exact static_result hok h hd (castArgs_converted hok hx tys args hl ho (placeholders_tensor tys 0 phs hp)) hw

theorem castArgs_length {L : JaxLib D Code Exe H B} : ∀ (tys : List Ty) (args vs : List (Arr D)), args.length = tys.length →
    castArgs L tys args = some vs → vs.length = tys.length
  | [], [], vs, _, h => by simp [castArgs] at h; simp [← h]
  | t :: ts, a :: as, vs, hl, h => by
    simp only [castArgs, Option.bind_eq_bind, Option.pure_def] at h
    cases h0 : castArg L t a with
    | none => simp [h0] at h
    | some b =>
      cases h1 : castArgs L ts as with
      | none => simp [h0, h1] at h
      | some bs =>
        simp only [h0, h1, Option.bind_some, Option.some.injEq] at h
        subst h
        simp [castArgs_length ts as bs (by simpa using hl) h1]
  | [], _ :: _, _, hl, _ => by simp at hl
  | _ :: _, [], _, hl, _ => by simp at hl

/-- **C90** (shape check) Without unknown dimensions and with every argument used, `run_jax` returns a result only if the
arguments have the declared shapes after conversion. -/
theorem static_shape_checked {L : JaxLib D Code Exe H B} (hok : L.Ok) {n : Nat} {names : Option (List (List (Option String)))}
    {f : List (Arr D) → Option (List (Arr D))} {tys : List Ty} {op : Op Code} {m : Nat} (h : traceRun L n names f tys = some (op, m))
    (hd : op.dyn = false) (hk : op.keep = none) {args r : List (Arr D)} (hr : (call L Caches.empty 0 0 op args).1 = some r) :
    ∃ vs, castArgs L tys args = some vs ∧ WellTyped L.x64 names tys vs := by
  rw [call_empty] at hr
  obtain ⟨phs, e, outs, hp, he, ho, _, rfl⟩ := traceRun_ok h
  have hd : hasSym phs = false := hd
  obtain ⟨x, hx, _, href⟩ := hok.static f phs e he hd
  have hkept : e.kept = List.range phs.length := by
    refine hok.kept_all f phs e he ?_
    have h1 := hok.kept_len f phs e he
    have : ¬ e.kept.length < phs.length := by
      intro hlt
      rw [if_pos hlt] at hk
      simp at hk
    omega
  simp only [compileFor, hd, Bool.false_eq_true, if_false, hx, Option.bind_some, execute] at hr
  cases hc : castArgs L tys args with
  | none => rw [hc] at hr; simp at hr
  | some vs =>
    rw [hc] at hr
    rw [if_neg (by rw [hkept]; simp)] at hr
    simp only [] at hr
    refine ⟨vs, rfl, ?_⟩
    rw [← admits_iff hp]
    by_contra hn
    rw [href phs vs (by rw [hkept]; exact pick_range phs) hn] at hr
    simp at hr

theorem fits_transfer {x64 : Bool} {σ : String → Nat} {phs : List PH} {args args' : List (Arr D)}
    (h : List.Forall₂ (Fits x64 σ) phs args') (ht : List.Forall₂ (fun b a : Arr D => b.shape = a.shape ∧ b.dtype = a.dtype) args' args) :
    List.Forall₂ (Fits x64 σ) phs args := by
  induction h generalizing args with
  | nil => cases ht; exact .nil
  | cons hf _ ih =>
    cases ht with
    | cons h1 h2 => exact .cons ⟨h1.2 ▸ hf.1, h1.1 ▸ hf.2⟩ (ih h2)

theorem forall₂_right {α β : Type} {R : α → β → Prop} {l : List α} {m : List β} (h : List.Forall₂ R l m) :
    ∀ b ∈ m, ∃ a ∈ l, R a b := by
  induction h with
  | nil => simp
  | cons h1 _ ih =>
    intro b hb
    rcases List.mem_cons.1 hb with rfl | hb
    · exact ⟨_, by simp, h1⟩
    · obtain ⟨a, ha, hr⟩ := ih b hb
      exact ⟨a, by simp [ha], hr⟩

/-- **C90** (unknown dimensions) With an unknown dimension, on arguments of any numpy dtype or object arrays, `run_jax` returns `r`
exactly if the arguments have exactly the declared dtypes and shapes with equal positive sizes for dimensions of the same name (a
dimension nobody named is called `n_rows`, in every argument), no argument is complex, and the function returns `r`. -/
theorem dynamic_result_iff {L : JaxLib D Code Exe H B} (hok : L.Ok) {n : Nat} {names : Option (List (List (Option String)))}
    {f : List (Arr D) → Option (List (Arr D))} {tys : List Ty} {op : Op Code} {m : Nat} (h : traceRun L n names f tys = some (op, m))
    (hd : op.dyn = true) {args : List (Arr D)} (hk : ∀ a ∈ args, a.dtype ∈ knownDtypes) (r : List (Arr D)) :
    (call L Caches.empty 0 0 op args).1 = some r ↔ WellTyped L.x64 names tys args ∧ (∀ a ∈ args, Plain a) ∧ f args = some r := by
  constructor
  · intro hr
    have key : WellTyped L.x64 names tys args ∧ ∀ a ∈ args, Plain a := by
      rw [call_empty] at hr
      obtain ⟨phs, e, outs, hp, he, ho, _, rfl⟩ := traceRun_ok h
      have hd : hasSym phs = true := hd
      simp only [compileFor, hd, if_true] at hr
      cases hc : L.refine e.code (args.map makeTensorType) with
      | none => rw [hc] at hr; simp at hr
      | some c =>
        obtain ⟨args', ha', ht⟩ := (hok.refines f phs e he hd _).1 ⟨c, hc⟩
        rw [map_types hk] at ht
        refine ⟨?_, ?_⟩
        · rw [← admits_iff hp]
          obtain ⟨σ, hpos, hfit⟩ := ha'
          refine ⟨σ, hpos, ?_⟩
          exact fits_transfer hfit (ht.imp fun _ _ h => ⟨h.1, h.2.1⟩)
        · intro a ha
          obtain ⟨b, _, hb⟩ := forall₂_right ht a ha
          exact ⟨hb.2.2.1, hb.2.2.2.1⟩
    refine ⟨key.1, key.2, ?_⟩
    rw [← run_jax_result_partial hok h key.1 (fun _ => key.2), hr]
  · rintro ⟨hw, hp, hf⟩
    rw [run_jax_result_partial hok h hw (fun _ => hp), hf]

/-- a dimension named `s` in two places has one size -/
theorem same_name_same_size {x64 : Bool} {names : Option (List (List (Option String)))} {tys : List Ty} {args : List (Arr D)}
    (hw : WellTyped x64 names tys args) {i j k l p q : Nat} {e e' : Ty} {s s' : List Int} {a b : Arr D} {nm : String}
    (hi : tys[i]? = some (.tensor e s)) (hj : tys[j]? = some (.tensor e' s')) (ha : args[i]? = some a) (hb : args[j]? = some b)
    (hk : s[k]? = some (-1)) (hl : s'[l]? = some (-1)) (hp : a.shape[k]? = some p) (hq : b.shape[l]? = some q)
    (h1 : symbolicName names i k = .ok nm) (h2 : symbolicName names j l = .ok nm) : p = q ∧ 0 < p := by
  obtain ⟨_, σ, h0, ht⟩ := hw
  have ta := ht i _ a hi ha
  have tb := ht j _ b hj hb
  simp only [HasType, plainTy] at ta tb
  have e1 := (ta.2.2 k (-1) p hk hp).2 rfl nm h1
  have e2 := (tb.2.2 l (-1) q hl hq).2 rfl nm h2
  exact ⟨by rw [e1, e2], by rw [e1]; exact h0 nm⟩

/-- **C90, violated** (sizes) Two arguments of unknown length, no names given: every call with different lengths raises, whatever
the function does with them. -/
theorem unknown_sizes_violated {L : JaxLib D Code Exe H B} (hok : L.Ok) {n : Nat} {f : List (Arr D) → Option (List (Arr D))}
    {op : Op Code} {m : Nat} (h : traceRun L n none f [.tensor (.float 32) [-1], .tensor (.float 32) [-1]] = some (op, m))
    (p q : Nat) (hpq : p ≠ q) (x y : D) : (call L Caches.empty 0 0 op [⟨"float32", [p], x⟩, ⟨"float32", [q], y⟩]).1 = none := by
  have hd : op.dyn = true := by
    obtain ⟨phs, e, outs, hp, _, _, _, rfl⟩ := traceRun_ok h
    simp only [placeholders, placeholder, plainTy, Ty.isScalar, placeDims, placeDim, symbolicName] at hp
    cases hp
    rfl
  cases hr : (call L Caches.empty 0 0 op [⟨"float32", [p], x⟩, ⟨"float32", [q], y⟩]).1 with
  | none => rfl
  | some r =>
    have hw := ((dynamic_result_iff hok h hd (by simp [knownDtypes]) r).1 hr).1
    exact absurd (same_name_same_size hw (i := 0) (j := 1) (k := 0) (l := 0) rfl rfl rfl rfl rfl rfl rfl rfl rfl rfl).1 hpq

/-- **C90, violated** (matrices) A matrix with both dimensions unknown, no names given, must be square. -/
theorem unknown_matrix_violated {L : JaxLib D Code Exe H B} (hok : L.Ok) {n : Nat} {f : List (Arr D) → Option (List (Arr D))}
    {op : Op Code} {m : Nat} (h : traceRun L n none f [.tensor (.float 32) [-1, -1]] = some (op, m))
    (p q : Nat) (hpq : p ≠ q) (x : D) : (call L Caches.empty 0 0 op [⟨"float32", [p, q], x⟩]).1 = none := by
  have hd : op.dyn = true := by
    obtain ⟨phs, e, outs, hp, _, _, _, rfl⟩ := traceRun_ok h
    simp only [placeholders, placeholder, plainTy, Ty.isScalar, placeDims, placeDim, symbolicName] at hp
    cases hp
    rfl
  cases hr : (call L Caches.empty 0 0 op [⟨"float32", [p, q], x⟩]).1 with
  | none => rfl
  | some r =>
    have hw := ((dynamic_result_iff hok h hd (by simp [knownDtypes]) r).1 hr).1
    exact absurd (same_name_same_size hw (i := 0) (j := 0) (k := 0) (l := 1) rfl rfl rfl rfl rfl rfl rfl rfl rfl rfl).1 hpq

/-- **C90, violated** (empty) A tensor of unknown length must not be empty. -/
theorem unknown_empty_violated {L : JaxLib D Code Exe H B} (hok : L.Ok) {n : Nat} {f : List (Arr D) → Option (List (Arr D))}
    {op : Op Code} {m : Nat} (h : traceRun L n none f [.tensor (.float 32) [-1]] = some (op, m)) (x : D) :
    (call L Caches.empty 0 0 op [⟨"float32", [0], x⟩]).1 = none := by
  have hd : op.dyn = true := by
    obtain ⟨phs, e, outs, hp, _, _, _, rfl⟩ := traceRun_ok h
    simp only [placeholders, placeholder, plainTy, Ty.isScalar, placeDims, placeDim, symbolicName] at hp
    cases hp
    rfl
  cases hr : (call L Caches.empty 0 0 op [⟨"float32", [0], x⟩]).1 with
  | none => rfl
  | some r =>
    have hw := ((dynamic_result_iff hok h hd (by simp [knownDtypes]) r).1 hr).1
    exact absurd (same_name_same_size hw (i := 0) (j := 0) (k := 0) (l := 0) rfl rfl rfl rfl rfl rfl rfl rfl rfl rfl).2 (by omega)

/-- **C90, violated** (conversion) The conversion to the declared dtype that `run_jax_converts` promises does not happen when a
dimension is unknown: a `float64` value for an `f32` tensor of unknown length is refused. -/
theorem dynamic_dtype_violated {L : JaxLib D Code Exe H B} (hok : L.Ok) {n : Nat} {f : List (Arr D) → Option (List (Arr D))}
    {op : Op Code} {m : Nat} (h : traceRun L n none f [.tensor (.float 32) [-1]] = some (op, m)) (k : Nat) (x : D) :
    (call L Caches.empty 0 0 op [⟨"float64", [k], x⟩]).1 = none := by
  have hd : op.dyn = true := by
    obtain ⟨phs, e, outs, hp, _, _, _, rfl⟩ := traceRun_ok h
    simp only [placeholders, placeholder, plainTy, Ty.isScalar, placeDims, placeDim, symbolicName] at hp
    cases hp
    rfl
  cases hr : (call L Caches.empty 0 0 op [⟨"float64", [k], x⟩]).1 with
  | none => rfl
  | some r =>
    obtain ⟨_, σ, _, ht⟩ := ((dynamic_result_iff hok h hd (by simp [knownDtypes]) r).1 hr).1
    have := ht 0 _ _ rfl rfl
    simp only [HasType, plainTy] at this
    obtain ⟨⟨d, hj, he⟩, _⟩ := this
    have hj : d = "float32" := by
      have : toJax (.float 32) = .ok "float32" := by decide +kernel
      rw [this] at hj
      exact (Except.ok.inj hj).symm
    subst hj
    have : canon L.x64 "float32" = "float32" := by cases L.x64 <;> decide +kernel
    rw [this] at he
    simp at he

/-- **C90, violated** (64 bit) In jax's default configuration a 64-bit tensor of unknown length, given as numpy delivers it, is
refused, although its dtype is the declared one. -/
theorem dynamic_x64_violated {L : JaxLib D Code Exe H B} (hok : L.Ok) (hx : L.x64 = false) {n : Nat}
    {f : List (Arr D) → Option (List (Arr D))} {op : Op Code} {m : Nat}
    (h : traceRun L n none f [.tensor (.float 64) [-1]] = some (op, m)) (k : Nat) (x : D) :
    (call L Caches.empty 0 0 op [⟨"float64", [k], x⟩]).1 = none := by
  have hd : op.dyn = true := by
    obtain ⟨phs, e, outs, hp, _, _, _, rfl⟩ := traceRun_ok h
    simp only [placeholders, placeholder, plainTy, Ty.isScalar, placeDims, placeDim, symbolicName] at hp
    cases hp
    rfl
  cases hr : (call L Caches.empty 0 0 op [⟨"float64", [k], x⟩]).1 with
  | none => rfl
  | some r =>
    obtain ⟨_, σ, _, ht⟩ := ((dynamic_result_iff hok h hd (by simp [knownDtypes]) r).1 hr).1
    have := ht 0 _ _ rfl rfl
    simp only [HasType, plainTy] at this
    obtain ⟨⟨d, hj, he⟩, _⟩ := this
    have hj : d = "float64" := by
      have : toJax (.float 64) = .ok "float64" := by decide +kernel
      rw [this] at hj
      exact (Except.ok.inj hj).symm
    subst hj
    rw [hx] at he
    have : canon false "float64" = "float32" := by decide +kernel
    rw [this] at he
    simp at he

/-- **C90, violated** (complex) A complex tensor of unknown length is always refused. -/
theorem dynamic_complex_violated {L : JaxLib D Code Exe H B} (hok : L.Ok) {n : Nat} {f : List (Arr D) → Option (List (Arr D))}
    {op : Op Code} {m : Nat} (h : traceRun L n none f [.tensor (.complex 32) [-1]] = some (op, m)) (k : Nat) (x : D) :
    (call L Caches.empty 0 0 op [⟨"complex64", [k], x⟩]).1 = none := by
  have hd : op.dyn = true := by
    obtain ⟨phs, e, outs, hp, _, _, _, rfl⟩ := traceRun_ok h
    simp only [placeholders, placeholder, plainTy, Ty.isScalar, placeDims, placeDim, symbolicName] at hp
    cases hp
    rfl
  cases hr : (call L Caches.empty 0 0 op [⟨"complex64", [k], x⟩]).1 with
  | none => rfl
  | some r =>
    have := ((dynamic_result_iff hok h hd (by simp [knownDtypes]) r).1 hr).2.1 ⟨"complex64", [k], x⟩ (by simp)
    exact absurd rfl this.1

/-! ### Output types and compilation ids -/

theorem outTys_spec : ∀ (os : List (String × List (Option Nat))) (ts : List Ty), outTys os = .ok ts →
    List.Forall₂ (fun o t => ∃ u, fromDtype o.1 = .ok u ∧ t = .tensor u (o.2.map outDim)) os ts
  | [], ts, h => by simp only [outTys, Except.ok.injEq] at h; subst h; exact .nil
  | o :: r, ts, h => by
    simp only [outTys, bind, Except.bind] at h
    split at h
    · simp at h
    · next t ht =>
      split at h
      · simp at h
      · next ts' hts =>
        simp only [pure, Except.pure, Except.ok.injEq] at h
        subst h
        refine .cons ?_ (outTys_spec r ts' hts)
        simp only [outTy, bind, Except.bind] at ht
        split at ht
        · simp at ht
        · next u hu =>
          split at ht
          · simp only [pure, Except.pure, Except.ok.injEq] at ht
            exact ⟨u, hu, ht.symm⟩
          · simp at ht

/-- a value has a tensor type: dtype and shape, -1 standing for any size -/
def OfType (t : Ty) (a : Arr D) : Prop :=
  ∃ e s, t = .tensor e s ∧ toJax e = .ok a.dtype ∧ List.Forall₂ (fun (d : Int) (n : Nat) => d = -1 ∨ d = n) s a.shape

theorem outs_typed {os : List (String × List (Option Nat))} {ts : List Ty} {r : List (Arr D)}
    (h1 : List.Forall₂ (fun (o : String × List (Option Nat)) (a : Arr D) => a.dtype = o.1 ∧
      List.Forall₂ (fun (d : Option Nat) n => ∀ m, d = some m → n = m) o.2 a.shape) os r)
    (h2 : List.Forall₂ (fun o t => ∃ u, fromDtype o.1 = .ok u ∧ t = .tensor u (o.2.map outDim)) os ts)
    (hs : ∀ a ∈ r, a.dtype ∈ scalarTable.map Prod.snd) : List.Forall₂ OfType ts r := by
  induction h1 generalizing ts with
  | nil => cases h2; exact .nil
  | @cons o a os' r' ha hrest ih =>
    cases h2 with
    | @cons _ t _ ts ht hts =>
      refine .cons ?_ (ih hts (fun b hb => hs b (by simp [hb])))
      obtain ⟨u, hu, rfl⟩ := ht
      refine ⟨u, _, rfl, ?_, ?_⟩
      · obtain ⟨v, hv, hj⟩ := dtype_roundtrip_back a.dtype (hs a (by simp))
        rw [ha.1, hu] at hv
        rw [Except.ok.inj hv]
        exact hj
      · have h3 := ha.2
        generalize a.shape = sh at h3
        generalize o.2 = ds at h3 ⊢
        induction h3 with
        | nil => exact .nil
        | @cons d k ds' ks hd _ ih =>
          refine .cons ?_ ih
          cases d with
          | none => exact .inl rfl
          | some j => exact .inr (by simp [outDim, hd j rfl])

/-- **C90** (types) The results have the static types of the operation's outputs, one result per output, when their dtypes are the
documented ones.  Missing: dtypes jax has and the type system does not (`bfloat16_output_violated`). -/
theorem run_jax_output_types_partial {L : JaxLib D Code Exe H B} (hok : L.Ok) {n : Nat} {names : Option (List (List (Option String)))}
    {f : List (Arr D) → Option (List (Arr D))} {tys : List Ty} {op : Op Code} {m : Nat} (h : traceRun L n names f tys = some (op, m))
    {args r : List (Arr D)} (hw : WellTyped L.x64 names tys args) (hc : op.dyn = true → ∀ a ∈ args, Plain a)
    (hr : (call L Caches.empty 0 0 op args).1 = some r) (hs : ∀ a ∈ r, a.dtype ∈ scalarTable.map Prod.snd) :
    List.Forall₂ OfType op.outputs r := by
  rw [run_jax_result_partial hok h hw hc] at hr
  obtain ⟨phs, e, outs, hp, he, ho, _, rfl⟩ := traceRun_ok h
  exact outs_typed (hok.outs f phs e he args r ((admits_iff hp args).2 hw) hr) (outTys_spec _ _ ho) hs

/-- **C90, violated** (types) A `bfloat16` result is typed `f16`, which is another dtype: no value of dtype `bfloat16` has the type
its operation is given. -/
theorem bfloat16_output_violated (s : List (Option Nat)) (t : Ty) (h : outTy ("bfloat16", s) = .ok t) (a : Arr D)
    (ha : a.dtype = "bfloat16") : ¬ OfType t a := by
  rintro ⟨e, s', rfl, hj, _⟩
  have hb : fromDtype "bfloat16" = .ok (.float 16) := by rfl
  simp only [outTy, hb, bind, Except.bind] at h
  split at h
  · simp only [pure, Except.pure, Except.ok.injEq, Ty.tensor.injEq] at h
    rw [← h.1, ha] at hj
    have : toJax (.float 16) = .ok "float16" := by decide +kernel
    rw [this] at hj
    simp at hj
  · simp at h

/-- **C90** (ids) Every compilation of a process gets its own id. -/
theorem compilation_ids_distinct {n k : Nat} (h : compilationId n = compilationId k) : n = k := Base.append_repr_inj h

/-- **C90, violated** (tracing twice) Tracing the same function on the same types a second time yields another operation: the id
counter of the process is part of it. -/
theorem retrace_violated {L : JaxLib D Code Exe H B} {n k : Nat} {names : Option (List (List (Option String)))}
    {f : List (Arr D) → Option (List (Arr D))} {tys : List Ty} {op op' : Op Code} {m m' : Nat}
    (h : traceRun L n names f tys = some (op, m)) (h' : traceRun L k names f tys = some (op', m')) :
    (op = op' ↔ n = k) ∧ { op with textRef := "" } = { op' with textRef := "" } := by
  obtain ⟨phs, e, outs, hp, he, ho, _, rfl⟩ := traceRun_ok h
  obtain ⟨phs', e', outs', hp', he', ho', _, rfl⟩ := traceRun_ok h'
  rw [hp] at hp'
  cases Except.ok.inj hp'
  rw [he] at he'
  cases Option.some.inj he'
  rw [ho] at ho'
  cases Except.ok.inj ho'
  refine ⟨⟨fun hh => ?_, fun hh => by rw [hh]⟩, rfl⟩
  exact compilation_ids_distinct (congrArg Op.textRef hh)

/-- **C90** The name of an unknown dimension: the one given for it, `n_rows` when the argument or the dimension has no entry, and a
`ValueError` for an entry that is `None`. -/
theorem dimension_names (names : Option (List (List (Option String)))) (i k : Nat) :
    let given := (names.bind (·[i]?)).bind (·[k]?)
    (∀ s, given = some (some s) → symbolicName names i k = .ok s) ∧ (given = some none → symbolicName names i k = .error .value) ∧
      (given = none → symbolicName names i k = .ok "n_rows") := by
  unfold symbolicName
  cases names with
  | none => simp
  | some l =>
    cases h : l[i]? with
    | none => simp [h]
    | some row =>
      cases h' : row[k]? with
      | none => simp [h, h']
      | some x => cases x <;> simp [h, h']

example : symbolicName (some [[some "batch"], []]) 0 0 = .ok "batch" ∧ symbolicName (some [[some "batch"], []]) 1 0 = .ok "n_rows" ∧
    symbolicName (some [[none]]) 0 0 = .error .value := ⟨rfl, rfl, rfl⟩

end Verif.Jax
