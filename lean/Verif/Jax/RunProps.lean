import Verif.Jax.Run
import Verif.Comm.Scope
/-! C90: `tensor.run_jax` computes the function it is given. -/
namespace Verif.Jax
open Verif.Serde Verif.Tensor

variable {D Code Exe H B : Type}

/-! ### Caches never change a result -/

/-- invariant of the caches: everything in them was compiled from an operation in `S` with that hash -/
structure Inv (L : JaxLib D Code Exe H B) (S : Op Code → Prop) (c : Caches Exe H B) : Prop where
  mem : ∀ p h x, c.mem p h = some x → ∃ op, S op ∧ op.dyn = false ∧ L.hash op.code = h ∧ L.compile op.code = some x
  disk : ∀ r h b, c.disk r h = some b → ∃ x n op, S op ∧ L.hash op.code = h ∧ b = (L.ser x).take n ∧
    (op.dyn = false → L.compile op.code = some x)

theorem inv_empty (L : JaxLib D Code Exe H B) (S : Op Code → Prop) : Inv L S Caches.empty :=
  ⟨fun _ _ _ h => by simp [Caches.empty] at h, fun _ _ _ h => by simp [Caches.empty] at h⟩

theorem traceRun_ok {L : JaxLib D Code Exe H B} {n : Nat} {names : Option (List (List (Option String)))}
    {f : List (Arr D) → Option (List (Arr D))} {tys : List Ty} {op : Op Code} {m : Nat} (h : traceRun L n names f tys = some (op, m)) :
    ∃ phs e outs, placeholders names 0 tys = .ok phs ∧ L.exportFn f phs = some e ∧ outTys e.outs = .ok outs ∧ m = n + 1 ∧
      op = ⟨e.code, if e.kept.length < phs.length then some e.kept else none, hasSym phs, compilationId n, tys, outs⟩ := by
  unfold traceRun at h
  split at h
  · simp at h
  · next phs hp =>
    split at h
    · simp at h
    · next e he =>
      split at h
      · simp at h
      · next outs ho =>
        simp only [Option.some.injEq, Prod.mk.injEq] at h
        exact ⟨phs, e, outs, hp, he, ho, h.2.symm, h.1.symm⟩

theorem traced_dyn {L : JaxLib D Code Exe H B} (hok : L.Ok) {op op' : Op Code} (h : Traced L op) (h' : Traced L op')
    (hc : op.code = op'.code) : op.dyn = op'.dyn := by
  obtain ⟨n, names, f, tys, m, e⟩ := h
  obtain ⟨n', names', f', tys', m', e'⟩ := h'
  obtain ⟨_, _, _, _, hx, _, _, rfl⟩ := traceRun_ok e
  obtain ⟨_, _, _, _, hx', _, _, rfl⟩ := traceRun_ok e'
  exact hok.text _ _ _ _ _ _ hx hx' hc

theorem Inv.write {L : JaxLib D Code Exe H B} {S : Op Code → Prop} {c : Caches Exe H B} (i : Inv L S c) {op : Op Code} (hs : S op)
    {x : Exe} (hx : op.dyn = false → L.compile op.code = some x) (root n : Nat) :
    Inv L S (c.write root (L.hash op.code) ((L.ser x).take n)) := by
  refine ⟨i.mem, ?_⟩
  intro r h b hb
  simp only [Caches.write] at hb
  split at hb
  · next e =>
    simp only [Option.some.injEq] at hb
    exact ⟨x, n, op, hs, e.2.symm, hb.symm, hx⟩
  · exact i.disk r h b hb

theorem Inv.remember {L : JaxLib D Code Exe H B} {S : Op Code → Prop} {c : Caches Exe H B} (i : Inv L S c) {op : Op Code} (hs : S op)
    (hd : op.dyn = false) {x : Exe} (hx : L.compile op.code = some x) (p : Nat) :
    Inv L S (c.remember p (L.hash op.code) x) := by
  refine ⟨?_, i.disk⟩
  intro q h y hy
  simp only [Caches.remember] at hy
  split at hy
  · next e =>
    simp only [Option.some.injEq] at hy
    exact ⟨op, hs, hd, e.2.symm, hy ▸ hx⟩
  · exact i.mem q h y hy

theorem Inv.forget {L : JaxLib D Code Exe H B} {S : Op Code → Prop} {c : Caches Exe H B} (i : Inv L S c) (p : Nat) : Inv L S (c.forget p) := by
  refine ⟨?_, i.disk⟩
  intro q h y hy
  simp only [Caches.forget] at hy
  split at hy
  · simp at hy
  · exact i.mem q h y hy

/-- operations of `S` are traced and their modules have different hashes -/
structure Distinct (L : JaxLib D Code Exe H B) (S : Op Code → Prop) : Prop where
  traced : ∀ op, S op → Traced L op
  inj : ∀ op op', S op → S op' → L.hash op.code = L.hash op'.code → op.code = op'.code

theorem fromDisk_eq {L : JaxLib D Code Exe H B} (hok : L.Ok) {S : Op Code → Prop} (hS : Distinct L S) {c : Caches Exe H B} (i : Inv L S c)
    {root : Nat} {op : Op Code} (ho : S op) {x : Exe} (h : fromDisk L c root op = some x) :
    op.dyn = false ∧ L.compile op.code = some x := by
  unfold fromDisk at h
  split at h
  · simp at h
  · next hd =>
    have hd : op.dyn = false := by simpa using hd
    split at h
    · simp at h
    · next b hb =>
      obtain ⟨y, n, op', hs', hh, rfl, hc⟩ := i.disk _ _ _ hb
      have hcode := hS.inj _ _ hs' ho hh
      have hd' : op'.dyn = false := by
        rw [traced_dyn hok (hS.traced _ hs') (hS.traced _ ho) hcode, hd]
      rw [hok.de_prefix y n x h]
      exact ⟨hd, hcode ▸ hc hd'⟩

theorem lookup_eq {L : JaxLib D Code Exe H B} (hok : L.Ok) {S : Op Code → Prop} (hS : Distinct L S) {c : Caches Exe H B} (i : Inv L S c)
    (p root : Nat) {op : Op Code} (ho : S op) (args : List (Arr D)) :
    (lookupOrCompile L c p root op args).1 = compileFor L op args ∧ Inv L S (lookupOrCompile L c p root op args).2 := by
  unfold lookupOrCompile
  split
  · next x hx =>
    obtain ⟨op', hs', hd', hh, hc⟩ := i.mem _ _ _ hx
    have hcode := hS.inj _ _ hs' ho hh
    have hd : op.dyn = false := by
      rw [← traced_dyn hok (hS.traced _ hs') (hS.traced _ ho) hcode, hd']
    refine ⟨?_, i⟩
    simp [compileFor, hd, ← hcode, hc]
  · split
    · next x hx =>
      obtain ⟨hd, hc⟩ := fromDisk_eq hok hS i ho hx
      refine ⟨by simp [compileFor, hd, hc], ?_⟩
      simp only [hd, Bool.false_eq_true, if_false]
      exact i.remember ho hd hc p
    · split
      · next hn => exact ⟨hn.symm, i⟩
      · next x hx =>
        refine ⟨hx.symm, ?_⟩
        have hxc : op.dyn = false → L.compile op.code = some x := by
          intro hd
          simpa [compileFor, hd] using hx
        have i1 := i.write ho hxc root (L.ser x).length
        rw [List.take_length] at i1
        dsimp only
        split
        · exact i1
        · next hd =>
          have hd : op.dyn = false := by simpa using hd
          exact i1.remember ho hd (hxc hd) p

theorem call_fst {L : JaxLib D Code Exe H B} (hok : L.Ok) {S : Op Code → Prop} (hS : Distinct L S) {c : Caches Exe H B} (i : Inv L S c)
    (p root : Nat) {op : Op Code} (ho : S op) (args : List (Arr D)) :
    (call L c p root op args).1 = (compileFor L op args).bind fun x => execute L op x args := by
  have h := (lookup_eq hok hS i p root ho args).1
  unfold call
  split
  · next heq => rw [heq] at h; simp [← h]
  · next heq => rw [heq] at h; simp [← h]

theorem call_inv {L : JaxLib D Code Exe H B} (hok : L.Ok) {S : Op Code → Prop} (hS : Distinct L S) {c : Caches Exe H B} (i : Inv L S c)
    (p root : Nat) {op : Op Code} (ho : S op) (args : List (Arr D)) : Inv L S (call L c p root op args).2 := by
  have h := (lookup_eq hok hS i p root ho args).2
  unfold call
  split
  · next heq => rw [heq] at h; exact h
  · next heq => rw [heq] at h; exact h

theorem apply_inv {L : JaxLib D Code Exe H B} (hok : L.Ok) {S : Op Code → Prop} (hS : Distinct L S) {c : Caches Exe H B} (i : Inv L S c)
    (e : Ev D Code H) (he : ∀ op, e.op? = some op → S op) : Inv L S (e.apply L c) := by
  cases e with
  | call p root op args => exact call_inv hok hS i p root (he op rfl) args
  | crash p root op args n =>
    have ho := he op rfl
    simp only [Ev.apply]
    split
    · next x _ _ hx =>
      refine (i.write ho ?_ root n).forget p
      intro hd
      simpa [compileFor, hd] using hx
    · exact i.forget p
  | restart p => exact i.forget p
  | remove root h =>
    refine ⟨i.mem, ?_⟩
    intro r k b hb
    simp only [Ev.apply] at hb
    split at hb
    · simp at hb
    · exact i.disk r k b hb

theorem after_inv {L : JaxLib D Code Exe H B} (hok : L.Ok) {S : Op Code → Prop} (hS : Distinct L S) :
    ∀ (es : List (Ev D Code H)) (c : Caches Exe H B), Inv L S c → (∀ e ∈ es, ∀ op, e.op? = some op → S op) → Inv L S (after L c es)
  | [], _, i, _ => i
  | e :: es, c, i, h => after_inv hok hS es _ (apply_inv hok hS i e (h e (by simp))) (fun e' he' => h e' (by simp [he']))

/-- **C90** (caches) What `run_jax` returns does not depend on the caches: after any history of calls, crashes in the middle of
storing an executable, restarts and removed files, by any processes on any root directories, a call returns what it returns in a
fresh process on an empty disk. -/
theorem run_jax_history {L : JaxLib D Code Exe H B} (hok : L.Ok) {S : Op Code → Prop} (hS : Distinct L S)
    (es : List (Ev D Code H)) (hes : ∀ e ∈ es, ∀ op, e.op? = some op → S op) (op : Op Code) (ho : S op) (p root : Nat)
    (args : List (Arr D)) :
    (call L (after L Caches.empty es) p root op args).1 = (call L Caches.empty 0 0 op args).1 := by
  rw [call_fst hok hS (after_inv hok hS es _ (inv_empty L S) hes) p root ho args, call_fst hok hS (inv_empty L S) 0 0 ho args]

theorem call_empty {L : JaxLib D Code Exe H B} {op : Op Code} (args : List (Arr D)) :
    (call L Caches.empty 0 0 op args).1 = (compileFor L op args).bind fun x => execute L op x args := by
  unfold call lookupOrCompile
  have : fromDisk L (Caches.empty : Caches Exe H B) 0 op = none := by simp [fromDisk, Caches.empty]
  rw [this]
  simp only [Caches.empty]
  cases h : compileFor L op args <;> simp

/-! ### Argument types -/

/-- An argument has its declared type: the element type's dtype (as jax keeps it), and every dimension the declared size; an
unknown dimension (-1) has the size `σ` gives to its name. -/
def HasType (x64 : Bool) (names : Option (List (List (Option String)))) (σ : String → Nat) (i : Nat) (t : Ty) (a : Arr D) : Prop :=
  match plainTy t with
  | .tensor elem shape => (∃ d, toJax elem = .ok d ∧ a.dtype = canon x64 d) ∧ a.shape.length = shape.length ∧
      ∀ (k : Nat) (dim : Int) (n : Nat), shape[k]? = some dim → a.shape[k]? = some n →
        (dim ≠ -1 → (n : Int) = dim) ∧ (dim = -1 → ∀ s, symbolicName names i k = .ok s → n = σ s)
  | t => (∃ d, toJax t = .ok d ∧ a.dtype = canon x64 d) ∧ a.shape = []

/-- All arguments have their declared types, for some positive sizes of the unknown dimensions; dimensions with the same name
have the same size. -/
def WellTyped (x64 : Bool) (names : Option (List (List (Option String)))) (tys : List Ty) (args : List (Arr D)) : Prop :=
  args.length = tys.length ∧ ∃ σ : String → Nat, (∀ s, 0 < σ s) ∧
    ∀ (i : Nat) (t : Ty) (a : Arr D), tys[i]? = some t → args[i]? = some a → HasType x64 names σ i t a

theorem placeDims_spec {names : Option (List (List (Option String)))} {i : Nat} (σ : String → Nat) :
    ∀ (shape : List Int) (idx : Nat) (dims : List PDim), placeDims names i idx shape = .ok dims → ∀ (sh : List Nat),
      sh = dims.map (PDim.eval σ) ↔ sh.length = shape.length ∧ ∀ (k : Nat) (dim : Int) (n : Nat), shape[k]? = some dim → sh[k]? = some n →
        (dim ≠ -1 → (n : Int) = dim) ∧ (dim = -1 → ∀ s, symbolicName names i (idx + k) = .ok s → n = σ s)
  | [], idx, dims, h, sh => by
    simp only [placeDims, Except.ok.injEq] at h
    subst h
    simp
  | d :: r, idx, dims, h, sh => by
    simp only [placeDims, bind, Except.bind] at h
    split at h
    · simp at h
    · next x hx =>
      split at h
      · simp at h
      · next xs hxs =>
        simp only [pure, Except.pure, Except.ok.injEq] at h
        subst h
        have ih := placeDims_spec σ r (idx + 1) xs hxs
        have hhead : ∀ n : Nat, n = x.eval σ ↔ (d ≠ -1 → (n : Int) = d) ∧ (d = -1 → ∀ s, symbolicName names i idx = .ok s → n = σ s) := by
          intro n
          unfold placeDim at hx
          split at hx
          · simp at hx
          · next h1 =>
            split at hx
            · next h2 =>
              cases hn : symbolicName names i idx with
              | error e => simp [hn, Except.map] at hx
              | ok s =>
                simp only [hn, Except.map, Except.ok.injEq] at hx
                subst hx
                simp [h2, PDim.eval]
            · next h2 =>
              simp only [Except.ok.injEq] at hx
              subst hx
              simp only [PDim.eval, h2, ne_eq, not_false_eq_true, forall_const, false_implies, and_true]
              omega
        cases sh with
        | nil => simp
        | cons n sh =>
          simp only [List.map_cons, List.cons.injEq, List.length_cons, Nat.add_right_cancel_iff]
          rw [ih sh, hhead n]
          constructor
          · rintro ⟨h0, hl, hk⟩
            refine ⟨hl, ?_⟩
            intro k dim m h1 h2
            cases k with
            | zero =>
              simp only [List.getElem?_cons_zero, Option.some.injEq] at h1 h2
              subst h1; subst h2
              exact h0
            | succ k =>
              simp only [List.getElem?_cons_succ] at h1 h2
              have := hk k dim m h1 h2
              rwa [show idx + 1 + k = idx + (k + 1) by omega] at this
          · rintro ⟨hl, hk⟩
            refine ⟨hk 0 d n rfl rfl, hl, ?_⟩
            intro k dim m h1 h2
            have := hk (k + 1) dim m (by simpa using h1) (by simpa using h2)
            rwa [show idx + (k + 1) = idx + 1 + k by omega] at this

theorem placeholder_spec {x64 : Bool} {names : Option (List (List (Option String)))} {i : Nat} (σ : String → Nat) {t : Ty} {p : PH}
    (h : placeholder names i t = .ok p) (a : Arr D) : Fits x64 σ p a ↔ HasType x64 names σ i t a := by
  unfold placeholder at h
  unfold HasType
  generalize plainTy t = u at h
  split at h
  · next elem shape =>
    split at h
    · simp only [bind, Except.bind] at h
      split at h
      · simp at h
      · next dims hd =>
        split at h
        · simp at h
        · next d hj =>
          simp only [pure, Except.pure, Except.ok.injEq] at h
          subst h
          simp only [Fits, hj, Except.ok.injEq, exists_eq_left']
          rw [placeDims_spec σ shape 0 dims hd a.shape]
          simp
    · simp at h
  · next t' hne =>
    split at h
    · generalize hj : toJax u = r at h
      cases r with
      | error e => exact absurd h (by simp [Except.map])
      | ok d =>
        simp only [Except.map, Except.ok.injEq] at h
        subst h
        cases u <;> first | exact absurd rfl (hne _ _) | simp [Fits, hj]
    · simp at h

theorem placeholders_cons {names : Option (List (List (Option String)))} {i : Nat} {t : Ty} {r : List Ty} {phs : List PH}
    (h : placeholders names i (t :: r) = .ok phs) : ∃ p ps, phs = p :: ps ∧ placeholder names i t = .ok p ∧ placeholders names (i + 1) r = .ok ps := by
  simp only [placeholders, bind, Except.bind] at h
  split at h
  · simp at h
  · next p hp =>
    split at h
    · simp at h
    · next ps hps =>
      simp only [pure, Except.pure, Except.ok.injEq] at h
      exact ⟨p, ps, h.symm, hp, hps⟩

theorem placeholders_spec {x64 : Bool} {names : Option (List (List (Option String)))} (σ : String → Nat) :
    ∀ (tys : List Ty) (i : Nat) (phs : List PH), placeholders names i tys = .ok phs → ∀ (args : List (Arr D)),
      List.Forall₂ (Fits x64 σ) phs args ↔ args.length = tys.length ∧
        ∀ (k : Nat) (t : Ty) (a : Arr D), tys[k]? = some t → args[k]? = some a → HasType x64 names σ (i + k) t a
  | [], i, phs, h, args => by
    simp only [placeholders, Except.ok.injEq] at h
    subst h
    cases args <;> simp
  | t :: r, i, phs, h, args => by
    obtain ⟨p, ps, rfl, hp, hps⟩ := placeholders_cons h
    have ih := placeholders_spec (x64 := x64) σ r (i + 1) ps hps
    cases args with
    | nil => simp
    | cons a args =>
      rw [List.forall₂_cons, ih args, placeholder_spec σ hp a]
      simp only [List.length_cons, Nat.add_right_cancel_iff]
      constructor
      · rintro ⟨h0, hl, hk⟩
        refine ⟨hl, ?_⟩
        intro k t' a' h1 h2
        cases k with
        | zero =>
          simp only [List.getElem?_cons_zero, Option.some.injEq] at h1 h2
          subst h1; subst h2
          exact h0
        | succ k =>
          have := hk k t' a' (by simpa using h1) (by simpa using h2)
          rwa [show i + 1 + k = i + (k + 1) by omega] at this
      · rintro ⟨hl, hk⟩
        refine ⟨hk 0 t a rfl rfl, hl, ?_⟩
        intro k t' a' h1 h2
        have := hk (k + 1) t' a' (by simpa using h1) (by simpa using h2)
        rwa [show i + (k + 1) = i + 1 + k by omega] at this

theorem admits_iff {x64 : Bool} {names : Option (List (List (Option String)))} {tys : List Ty} {phs : List PH}
    (h : placeholders names 0 tys = .ok phs) (args : List (Arr D)) : Admits x64 phs args ↔ WellTyped x64 names tys args := by
  unfold Admits WellTyped
  constructor
  · rintro ⟨σ, h0, h1⟩
    rw [placeholders_spec σ tys 0 phs h args] at h1
    simp only [Nat.zero_add] at h1
    exact ⟨h1.1, σ, h0, h1.2⟩
  · rintro ⟨hl, σ, h0, h1⟩
    refine ⟨σ, h0, (placeholders_spec σ tys 0 phs h args).2 ⟨hl, ?_⟩⟩
    simpa only [Nat.zero_add] using h1

/-! ### The type guard keeps well typed arguments -/

theorem canon_idem (x : Bool) (d : String) : canon x (canon x d) = canon x d := by
  unfold canon
  cases x
  · simp only [Bool.false_eq_true, if_false]
    repeat' split
    all_goals simp_all
  · simp

theorem toJax_ne_object {t : Ty} {d : String} (h : toJax t = .ok d) (x : Bool) : canon x d ≠ "object" := by
  rw [to_jax_iff] at h
  have : d ∈ (scalarTable ++ extraTable).map Prod.snd := List.mem_map.2 ⟨_, h, rfl⟩
  revert this
  generalize d = e
  revert e
  cases x <;> decide +kernel

theorem castArg_keep {L : JaxLib D Code Exe H B} (hok : L.Ok) {names : Option (List (List (Option String)))} {σ : String → Nat}
    {i : Nat} {t : Ty} {a : Arr D} (h : HasType L.x64 names σ i t a) : castArg L t a = some a := by
  have key : ∀ (u : Ty) (d : String), toJax u = .ok d → a.dtype = canon L.x64 d → asJax L a = some a := by
    intro u d hj ha
    unfold asJax
    rw [if_neg (by rw [ha]; exact toJax_ne_object hj _)]
    unfold astype
    rw [ha, canon_idem, hok.conv_self, ← ha]
  unfold castArg
  split
  · next elem shape =>
    simp only [HasType, plainTy] at h
    obtain ⟨⟨d, hj, ha⟩, _⟩ := h
    simp only [hj, key elem d hj ha, Option.map_some, Option.some.injEq]
    split
    · unfold astype
      rw [← ha, hok.conv_self]
    · rfl
  · next hne =>
    unfold HasType at h
    split at h
    · next elem _ _ => obtain ⟨⟨d, hj, ha⟩, _⟩ := h; exact key elem d hj ha
    · obtain ⟨⟨d, hj, ha⟩, _⟩ := h; exact key _ d hj ha

theorem castArgs_keep {L : JaxLib D Code Exe H B} (hok : L.Ok) {names : Option (List (List (Option String)))} {σ : String → Nat} :
    ∀ (tys : List Ty) (args : List (Arr D)) (i : Nat), args.length = tys.length →
      (∀ (k : Nat) (t : Ty) (a : Arr D), tys[k]? = some t → args[k]? = some a → HasType L.x64 names σ (i + k) t a) →
      castArgs L tys args = some args
  | [], [], _, _, _ => rfl
  | t :: ts, a :: as, i, hl, h => by
    have h0 := castArg_keep hok (h 0 t a rfl rfl)
    have ih := castArgs_keep hok (names := names) (σ := σ) ts as (i + 1) (by simpa using hl) (by
      intro k t' a' h1 h2
      have := h (k + 1) t' a' (by simpa using h1) (by simpa using h2)
      rwa [show i + (k + 1) = i + 1 + k by omega] at this)
    simp [castArgs, h0, ih]
  | [], _ :: _, _, hl, _ => by simp at hl
  | _ :: _, [], _, hl, _ => by simp at hl

/-! ### Type strings -/

theorem shapeStr_inj {e e' : List Char} (he : ∀ c ∈ e.head?, c.isDigit = false) (he' : ∀ c ∈ e'.head?, c.isDigit = false) :
    ∀ (s s' : List Nat), shapeStr e s ++ ['>'] = shapeStr e' s' ++ ['>'] → s = s' ∧ e = e'
  | [], [], h => by simpa [shapeStr] using h
  | [], d :: r, h => by
    exfalso
    simp only [shapeStr, List.append_assoc] at h
    obtain ⟨c, l, hc⟩ := List.exists_cons_of_ne_nil (Base.repr_ne_nil d)
    have hd : c.isDigit = true := Base.repr_isDigit (n := d) (by rw [hc]; simp)
    rw [hc] at h
    cases e with
    | nil => simp at h
    | cons b e =>
      simp only [List.cons_append, List.cons.injEq] at h
      have := he b (by simp)
      rw [h.1, hd] at this
      simp at this
  | d :: r, [], h => by
    exfalso
    simp only [shapeStr, List.append_assoc] at h
    obtain ⟨c, l, hc⟩ := List.exists_cons_of_ne_nil (Base.repr_ne_nil d)
    have hd : c.isDigit = true := Base.repr_isDigit (n := d) (by rw [hc]; simp)
    rw [hc] at h
    cases e' with
    | nil => simp at h
    | cons b e =>
      simp only [List.cons_append, List.cons.injEq] at h
      have := he' b (by simp)
      rw [← h.1, hd] at this
      simp at this
  | d :: r, d' :: r', h => by
    simp only [shapeStr, List.append_assoc, List.cons_append] at h
    obtain ⟨h1, h2⟩ := Comm.span_eq (p := Char.isDigit) (fun c hc => Base.repr_isDigit hc) (fun c hc => Base.repr_isDigit hc)
      (by simp) (by simp) h
    simp only [List.cons.injEq, true_and] at h2
    obtain ⟨h3, h4⟩ := shapeStr_inj he he' r r' h2
    exact ⟨by rw [Base.repr_inj (String.toList_inj.mp h1), h3], h4⟩

/-- the dtypes numpy and jax use here, and object arrays -/
def knownDtypes : List String :=
  ["float16", "float32", "float64", "int8", "int16", "int32", "int64", "uint8", "uint16", "uint32", "uint64", "bool",
   "int2", "int4", "uint2", "uint4", "complex64", "complex128", "object"]

theorem known_head : ∀ d ∈ knownDtypes, ∀ c ∈ (elemStr d).head?, c.isDigit = false := by decide +kernel

theorem mlirElem_cases {d : String} {e : List Char} (h : mlirElem d = some e) : d ∈ knownDtypes := by
  unfold mlirElem at h
  by_contra hn
  simp only [knownDtypes, List.mem_cons, List.not_mem_nil, or_false, not_or] at hn
  simp [hn] at h

theorem mlir_table : ∀ d ∈ knownDtypes, ∀ d' ∈ knownDtypes, mlirElem d' = some (elemStr d) ↔
    d = d' ∧ d ≠ "complex64" ∧ d ≠ "complex128" ∧ d ≠ "object" := by decide +kernel

theorem mlir_heads : ∀ d ∈ knownDtypes, ∀ c ∈ ((mlirElem d).getD ['f']).head?, c.isDigit = false := by decide +kernel

/-- the type string written for an array is the MLIR type of an array exactly if both have the same shape and dtype, and the
dtype is neither complex nor object -/
theorem type_string_iff {a : Arr D} {b : Arr D} (ha : a.dtype ∈ knownDtypes) :
    mlirType b = some (makeTensorType a) ↔ b.shape = a.shape ∧ b.dtype = a.dtype ∧
      a.dtype ≠ "complex64" ∧ a.dtype ≠ "complex128" ∧ a.dtype ≠ "object" := by
  unfold mlirType makeTensorType
  cases hb : mlirElem b.dtype with
  | none =>
    simp only [Option.map_none, reduceCtorEq, false_iff]
    rintro ⟨_, hd, h⟩
    have := (mlir_table a.dtype ha a.dtype ha).2 ⟨rfl, h⟩
    rw [hd] at hb
    simp [hb] at this
  | some e =>
    have hbk := mlirElem_cases hb
    have ht := mlir_table a.dtype ha b.dtype hbk
    simp only [Option.map_some, Option.some.injEq, List.append_assoc, List.append_cancel_left_eq]
    have hh : ∀ c ∈ e.head?, c.isDigit = false := by
      have := mlir_heads b.dtype hbk
      rwa [hb, Option.getD_some] at this
    constructor
    · intro h
      obtain ⟨h1, h2⟩ := shapeStr_inj hh (known_head _ ha) _ _ h
      rw [hb, h2] at ht
      have := ht.1 rfl
      exact ⟨h1, this.1.symm, this.2⟩
    · rintro ⟨h1, h2, h⟩
      have := ht.2 ⟨h2.symm, h⟩
      rw [hb, Option.some.injEq] at this
      rw [h1, this]

end Verif.Jax
