import Mathlib.Data.List.Perm.Basic
/-!
# C130: serialised objects come back as their own class (mplang/edsl/serde.py)

Classes of any program, with single inheritance: the registry built by any sequence of `@register_class`, the class written into the `_kind` field and
the class found for it by the reader.  What the classes' own `to_json` and `from_json` do is C01-C03.
-/
namespace Verif.Serde.Registry

/-- A Python class: its identity, its own `_serde_kind` if it defines one, and its base class if it has one. -/
inductive Cls where
  | base (id : Nat) (own : Option String)
  | sub (id : Nat) (own : Option String) (parent : Cls)
  deriving DecidableEq

/-- `getattr(cls, "_serde_kind", None)` (serde.py:89): attributes are inherited. -/
def Cls.kind : Cls → Option String
  | .base _ own => own
  | .sub _ own p => match own with
    | some k => some k
    | none => p.kind

/-- `_CLASS_REGISTRY` (serde.py:64) -/
abbrev Reg := String → Option Cls

/-- the registry before any import -/
def Reg.empty : Reg := fun _ => none

/-- `ValueError` of `register_class` -/
inductive RegErr where
  | noKind | duplicate
  deriving DecidableEq

/-- `register_class` (serde.py:69-103) -/
def register (r : Reg) (c : Cls) : Except RegErr Reg :=
  match c.kind with
  | none => .error .noKind
  | some k => match r k with
    | some d => if d ≠ c then .error .duplicate else .ok fun x => if x = k then some c else r x
    | none => .ok fun x => if x = k then some c else r x

/-- The registry after classes were decorated one after the other; a decoration that raises leaves it as it is. -/
def after : Reg → List Cls → Reg
  | r, [] => r
  | r, c :: cs => after (match register r c with | .ok r' => r' | .error _ => r) cs

/-- Did every decoration succeed? -/
def allOk : Reg → List Cls → Bool
  | _, [] => true
  | r, c :: cs => match register r c with
    | .ok r' => allOk r' cs
    | .error _ => false

/-- kinds `from_json` handles before it looks into the registry (serde.py:288-337) -/
def builtinKinds : List String :=
  ["_null", "_bool", "_int", "_float", "_str", "_list", "_tuple", "_dict", "_dict_pairs", "_bytes", "_ndarray", "_ndarray_object", "_pa_table"]

/-- kinds `_from_binary_json` handles before it looks into the registry (serde.py:588-630) -/
def binaryKinds : List String :=
  ["_null", "_bool", "_int", "_float", "_str", "_bytes", "_ndarray", "_bytes_bref", "_ndarray_bref", "_pa_table_bref", "_list", "_tuple", "_dict",
   "_dict_pairs", "_ndarray_object"]

/-- who reads a record -/
inductive Reader where
  | builtin | cls (c : Cls) | unknown
  deriving DecidableEq

/-- the dispatch of `from_json` on `_kind` (serde.py:283-350) -/
def dispatch (r : Reg) (k : String) : Reader :=
  if k ∈ builtinKinds then .builtin else match r k with
    | some c => .cls c
    | none => .unknown

/-- the dispatch of `_from_binary_json` (serde.py:580-643): what is not registered goes to `from_json` -/
def dispatchBinary (r : Reg) (k : String) : Reader :=
  if k ∈ binaryKinds then .builtin else match r k with
    | some c => .cls c
    | none => dispatch r k

/-- `to_json` of an instance of `c` writes `_kind` (serde.py:163-167, 477-487); `none`: the class has no kind and is not written this way -/
def written (c : Cls) : Option String := c.kind

/-- **Specification** `c` is the first class of the history with its kind. -/
def Owner (h : List Cls) (k : String) (c : Cls) : Prop :=
  ∃ pre post, h = pre ++ c :: post ∧ c.kind = some k ∧ ∀ d ∈ pre, d.kind ≠ some k

theorem owner_unique {h : List Cls} {k : String} {c d : Cls} (hc : Owner h k c) (hd : Owner h k d) : c = d := by
  induction h with
  | nil => obtain ⟨pre, post, e, _⟩ := hc; simp at e
  | cons x xs ih =>
    obtain ⟨pre, post, e, k1, f1⟩ := hc
    obtain ⟨pre', post', e', k2, f2⟩ := hd
    cases pre with
    | nil =>
      cases pre' with
      | nil =>
        simp only [List.nil_append, List.cons.injEq] at e e'
        exact e.1.symm.trans e'.1
      | cons y ys =>
        simp only [List.nil_append, List.cons_append, List.cons.injEq] at e e'
        exact absurd (by rw [← e'.1, e.1]; exact k1) (f2 y (by simp))
    | cons y ys =>
      cases pre' with
      | nil =>
        simp only [List.nil_append, List.cons_append, List.cons.injEq] at e e'
        exact absurd (by rw [← e.1, e'.1]; exact k2) (f1 y (by simp))
      | cons z zs =>
        simp only [List.cons_append, List.cons.injEq] at e e'
        exact ih ⟨ys, post, e.2, k1, fun d hd => f1 d (by simp [hd])⟩ ⟨zs, post', e'.2, k2, fun d hd => f2 d (by simp [hd])⟩

theorem step_eq (r : Reg) (c : Cls) (k : String) :
    (match register r c with | .ok r' => r' | .error _ => r) k = (match r k with | some d => some d | none => if c.kind = some k then some c else none) := by
  unfold register
  cases hk : c.kind with
  | none => simp only [reduceCtorEq, if_false]; cases r k <;> rfl
  | some k0 =>
    simp only [Option.some.injEq]
    cases h0 : r k0 with
    | none =>
      simp only
      by_cases e : k = k0
      · subst e; rw [if_pos rfl, h0]; simp
      · rw [if_neg e, if_neg (fun (x : k0 = k) => e (Eq.symm x))]; cases r k <;> rfl
    | some d =>
      simp only
      by_cases hd : d ≠ c
      · rw [if_pos hd]
        by_cases e : k = k0
        · subst e; simp only [h0]
        · have e' : ¬ k0 = k := fun x => e (Eq.symm x)
          cases hrk : r k <;> simp [hrk, e']
      · rw [if_neg hd]
        simp only
        have hd : d = c := Classical.not_not.1 hd
        by_cases e : k = k0
        · subst e; rw [if_pos rfl, h0, hd]
        · rw [if_neg e, if_neg (fun (x : k0 = k) => e (Eq.symm x))]; cases r k <;> rfl

theorem after_eq (h : List Cls) (r : Reg) (k : String) :
    after r h k = (match r k with | some d => some d | none => h.find? fun c => c.kind = some k) := by
  induction h generalizing r with
  | nil => unfold after; cases r k <;> rfl
  | cons c cs ih =>
    unfold after
    rw [ih, step_eq]
    cases r k with
    | some d => rfl
    | none =>
      by_cases e : c.kind = some k
      · simp [e]
      · simp [e]

theorem find_owner (h : List Cls) (k : String) (c : Cls) : (h.find? fun c => c.kind = some k) = some c ↔ Owner h k c := by
  rw [List.find?_eq_some_iff_append]
  unfold Owner
  constructor
  · rintro ⟨hk, as, bs, e, hn⟩
    exact ⟨as, bs, e, by simpa using hk, fun d hd => by simpa using hn d hd⟩
  · rintro ⟨pre, post, e, hk, hn⟩
    exact ⟨by simpa using hk, pre, post, e, fun d hd => by simpa using hn d hd⟩

/-- **C130 (registry).**  After any decorations, a kind belongs to the first class decorated with it. -/
theorem registry_first (h : List Cls) (k : String) (c : Cls) : after .empty h k = some c ↔ Owner h k c := by
  rw [after_eq, ← find_owner]
  rfl

/-- **C130 (stable).**  Later imports never take a kind away. -/
theorem registry_stable (h more : List Cls) (k : String) (c : Cls) (hc : after .empty h k = some c) : after .empty (h ++ more) k = some c := by
  rw [registry_first] at hc ⊢
  obtain ⟨pre, post, e, hk, hn⟩ := hc
  exact ⟨pre, post ++ more, by rw [e]; simp, hk, hn⟩

/-- **C130 (duplicates).**  A decoration is accepted exactly for a class with a kind that no other class has taken. -/
theorem register_accepts_iff (h : List Cls) (c : Cls) :
    (∃ r, register (after .empty h) c = .ok r) ↔ ∃ k, c.kind = some k ∧ ∀ d, Owner h k d → d = c := by
  unfold register
  cases hk : c.kind with
  | none => simp
  | some k =>
    simp only [Option.some.injEq, exists_eq_left']
    cases h0 : after .empty h k with
    | none =>
      simp only [Except.ok.injEq, exists_eq', true_iff]
      intro d hd
      rw [(registry_first h k d).2 hd] at h0
      cases h0
    | some d =>
      simp only
      have hd := (registry_first h k d).1 h0
      by_cases e : d = c
      · subst e
        simp only [ne_eq, not_true_eq_false, if_false, Except.ok.injEq, exists_eq', true_iff]
        exact fun d' h' => owner_unique h' hd
      · simp only [ne_eq, e, not_false_eq_true, if_true, reduceCtorEq, exists_false, false_iff]
        exact fun hall => e (hall d hd)

/-- **C130 (reading).**  An instance of class `c` is read back by `c` exactly if `c` is the first decorated class with its kind and the kind is not
one of the built-in ones; the binary format too. -/
theorem reads_back_iff (h : List Cls) (c : Cls) (k : String) (hw : written c = some k) :
    (dispatch (after .empty h) k = .cls c ↔ Owner h k c ∧ k ∉ builtinKinds) ∧
    (dispatchBinary (after .empty h) k = .cls c ↔ Owner h k c ∧ k ∉ binaryKinds) := by
  have key : after .empty h k = some c ↔ Owner h k c := registry_first h k c
  constructor
  · unfold dispatch
    by_cases hb : k ∈ builtinKinds
    · simp [hb]
    · simp only [hb, if_false, not_false_eq_true, and_true]
      rw [← key]
      cases after .empty h k <;> simp
  · unfold dispatchBinary
    by_cases hb : k ∈ binaryKinds
    · simp [hb]
    · simp only [hb, if_false, not_false_eq_true, and_true]
      rw [← key]
      cases h0 : after .empty h k with
      | none =>
        simp only [reduceCtorEq, iff_false]
        unfold dispatch
        rw [h0]
        by_cases hb' : k ∈ builtinKinds
        · rw [if_pos hb']; simp
        · rw [if_neg hb']; simp
      | some d => simp

/-- **C130 (import order).**  If no two classes share a kind, every decoration succeeds, and every order of imports gives the same registry: two
processes that imported the same modules in different orders agree on every record. -/
theorem import_order (h h' : List Cls) (hp : h.Perm h') (hn : ∀ c ∈ h, c.kind ≠ none) (hd : ∀ c ∈ h, ∀ d ∈ h, c.kind = d.kind → c = d) :
    allOk .empty h = true ∧ after .empty h = after .empty h' ∧ ∀ c ∈ h, ∀ k, c.kind = some k → after .empty h k = some c := by
  have own : ∀ g : List Cls, (∀ c ∈ g, ∀ d ∈ g, c.kind = d.kind → c = d) → ∀ c ∈ g, ∀ k, c.kind = some k → after .empty g k = some c := by
    intro g hg c hc k hk
    rw [registry_first, ← find_owner]
    cases hf : g.find? (fun c => c.kind = some k) with
    | none => simp [List.find?_eq_none] at hf; exact absurd hk (hf c hc)
    | some d =>
      have h1 := List.mem_of_find?_eq_some hf
      have h2 := List.find?_some hf
      rw [hg d h1 c hc (by rw [hk]; simpa using h2)]
  refine ⟨?_, ?_, own h hd⟩
  · have go : ∀ (g pre : List Cls), (∀ c ∈ pre ++ g, c.kind ≠ none) → (∀ c ∈ pre ++ g, ∀ d ∈ pre ++ g, c.kind = d.kind → c = d) →
        allOk (after .empty pre) g = true := by
      intro g
      induction g with
      | nil => intro pre _ _; rfl
      | cons c cs ih =>
        intro pre h1 h2
        obtain ⟨k, hk⟩ := Option.ne_none_iff_exists'.1 (h1 c (by simp))
        obtain ⟨r, hr⟩ := (register_accepts_iff pre c).2 ⟨k, hk, fun d hd => by
          obtain ⟨p, q, e, e2, _⟩ := hd
          exact h2 d (by rw [e]; simp) c (by simp) (e2.trans hk.symm)⟩
        unfold allOk
        rw [hr]
        have : r = after .empty (pre ++ [c]) := by
          funext x
          have h3 := step_eq (after .empty pre) c x
          rw [hr] at h3
          simp only at h3
          rw [h3, after_eq (pre ++ [c]), after_eq pre]
          simp only [Reg.empty, List.find?_append]
          cases pre.find? (fun c => c.kind = some x) with
          | some d => rfl
          | none => by_cases e : c.kind = some x <;> simp [e]
        simp only [this]
        exact ih (pre ++ [c]) (by simpa using h1) (by simpa using h2)
    exact go h [] hn hd
  · funext k
    cases hk : after .empty h' k with
    | none =>
      cases h1 : after .empty h k with
      | none => rfl
      | some c =>
        obtain ⟨p, q, e, e2, _⟩ := (registry_first h k c).1 h1
        have := own h' (fun c hc d hd' => hd c (hp.mem_iff.2 hc) d (hp.mem_iff.2 hd')) c (hp.mem_iff.1 (by rw [e]; simp)) k e2
        rw [this] at hk
        cases hk
    | some c =>
      obtain ⟨p, q, e, e2, _⟩ := (registry_first h' k c).1 hk
      exact own h hd c (hp.mem_iff.2 (by rw [e]; simp)) k e2

/-! ## The classes of mplang -/

/-- every `@serde.register_class` of the repository: `_serde_kind` (edsl/typing.py:191-854, edsl/graph.py:188-206, edsl/program.py:55-68,
dialects/bfv.py:105-243, dialects/crypto.py:33-168, dialects/spu.py:154-216, dialects/tee.py:77-180, backends/bfv_impl.py:61-187,
backends/crypto_impl.py:41-532, backends/func_impl.py:35-48, backends/simp_driver/values.py:25-32, backends/spu_impl.py:53-64,
backends/table_impl.py:545-553, backends/tee_impl.py:49-65, backends/tensor_impl.py:50-62) -/
def repoKinds : List String :=
  ["bfv_impl.BFVParamContextValue", "bfv_impl.BFVPublicContextValue", "bfv_impl.BFVSecretContextValue", "bfv_impl.BFVValue",
   "crypto_impl.BytesValue", "crypto_impl.ECPointValue", "crypto_impl.PrivateKeyValue", "crypto_impl.PublicKeyValue",
   "crypto_impl.SymmetricKeyValue", "func.FunctionValue", "simp.DriverVar", "spu_impl.SPUShareValue", "table_impl.TableValue",
   "tee_impl.MockQuoteValue", "tensor_impl.TensorValue", "bfv.KeyType", "bfv.PlaintextType", "bfv.CiphertextType", "bfv.EncoderType",
   "crypto.PointType", "crypto.ScalarType", "crypto.PrivateKeyType", "crypto.PublicKeyType", "crypto.SymmetricKeyType", "spu.SPUConfig",
   "tee.QuoteType", "tee.AttestedKeyType", "tee.MeasurementType", "mplang.Graph", "mplang.CompiledProgram", "mplang.IntegerType",
   "mplang.FloatType", "mplang.ComplexType", "mplang.TensorType", "mplang.VectorType", "mplang.TableType", "mplang.CustomType",
   "mplang.SSType", "mplang.MPType"]

/-- the classes; the secret context is a subclass of the public one (backends/bfv_impl.py:145-149), the others have no registered base -/
def repoClasses : List Cls :=
  repoKinds.zipIdx.map fun p => if p.1 = "bfv_impl.BFVSecretContextValue" then .sub p.2 (some p.1) (.base 1 (some "bfv_impl.BFVPublicContextValue"))
    else .base p.2 (some p.1)

theorem repo_kind (c : Cls) (hc : c ∈ repoClasses) : ∃ p ∈ repoKinds.zipIdx, c.kind = some p.1 ∧
    c = if p.1 = "bfv_impl.BFVSecretContextValue" then .sub p.2 (some p.1) (.base 1 (some "bfv_impl.BFVPublicContextValue")) else .base p.2 (some p.1) := by
  obtain ⟨p, hp, rfl⟩ := List.mem_map.1 hc
  refine ⟨p, hp, ?_, rfl⟩
  split <;> rfl

theorem repo_distinct : ∀ c ∈ repoClasses, ∀ d ∈ repoClasses, c.kind = d.kind → c = d := by decide +kernel

/-- **C130 (the library).**  However mplang's modules are imported, and whatever else is decorated later, every decoration of mplang succeeds and
an instance of any of its classes, written by one process, is read as an instance of that class by another, in both formats. -/
theorem library_classes (h : List Cls) (hp : h.Perm repoClasses) (more : List Cls) :
    allOk .empty h = true ∧ ∀ c ∈ repoClasses, ∃ k, written c = some k ∧ dispatch (after .empty (h ++ more)) k = .cls c ∧
      dispatchBinary (after .empty (h ++ more)) k = .cls c := by
  have hn : ∀ c ∈ h, c.kind ≠ none := by
    intro c hc
    obtain ⟨p, _, e, _⟩ := repo_kind c (hp.mem_iff.1 hc)
    rw [e]
    simp
  obtain ⟨h1, _, h3⟩ := import_order h h (List.Perm.refl _) hn
    (fun c hc d hd e => repo_distinct c (hp.mem_iff.1 hc) d (hp.mem_iff.1 hd) e)
  refine ⟨h1, fun c hc => ?_⟩
  obtain ⟨p, hpm, e, _⟩ := repo_kind c hc
  refine ⟨p.1, e, ?_⟩
  have h4 := registry_stable h more p.1 c (h3 c (hp.mem_iff.2 hc) p.1 e)
  obtain ⟨r1, r2⟩ := reads_back_iff (h ++ more) c p.1 e
  have hk : ∀ q ∈ repoKinds.zipIdx, q.1 ∉ builtinKinds ∧ q.1 ∉ binaryKinds := by decide +kernel
  exact ⟨r1.2 ⟨(registry_first _ _ _).1 h4, (hk p hpm).1⟩, r2.2 ⟨(registry_first _ _ _).1 h4, (hk p hpm).2⟩⟩

/-- **C130 does not hold for subclasses.**  A subclass that does not define its own `_serde_kind` is written without complaint and read back as its
base class; it cannot be decorated. -/
theorem subclass_violated (h : List Cls) (b : Cls) (k : String) (hb : Owner h k b) (hk : k ∉ builtinKinds) (i : Nat) (hne : Cls.sub i none b ≠ b) :
    written (.sub i none b) = some k ∧ dispatch (after .empty h) k = .cls b ∧ register (after .empty h) (.sub i none b) = .error .duplicate := by
  obtain ⟨p, q, e, e2, e3⟩ := id hb
  have hw : written (.sub i none b) = some k := e2
  refine ⟨hw, ((reads_back_iff h b k e2).1).2 ⟨hb, hk⟩, ?_⟩
  unfold register
  have : (Cls.sub i none b).kind = some k := e2
  rw [this]
  simp only [(registry_first h k b).2 hb]
  rw [if_pos fun x => hne x.symm]

/-- **C130 does not hold for reserved or unregistered kinds.**  A class may take a built-in kind: the decoration succeeds and instances are read by the
built-in reader.  And a class that is not decorated is written and cannot be read. -/
theorem reserved_violated :
    (∃ r, register .empty (.base 0 (some "_list")) = .ok r ∧ dispatch r "_list" = .builtin ∧ dispatchBinary r "_list" = .builtin) ∧
    written (.base 0 (some "my.Value")) = some "my.Value" ∧ dispatch .empty "my.Value" = .unknown ∧ dispatchBinary .empty "my.Value" = .unknown :=
  ⟨⟨_, rfl, by decide, by decide⟩, rfl, by decide, by decide⟩

/-! ## Examples -/

example : repoClasses.length = 39 ∧ repoClasses.reverse.Perm repoClasses := ⟨by decide, List.reverse_perm _⟩

/-- the secret context comes back as secret context, not as its base class -/
example : after .empty repoClasses "bfv_impl.BFVSecretContextValue" =
    some (.sub 2 (some "bfv_impl.BFVSecretContextValue") (.base 1 (some "bfv_impl.BFVPublicContextValue"))) := by decide +kernel

/-- a reloaded module makes a new class of the same kind: refused -/
example : Owner [.base 0 (some "a.A"), .base 1 (some "b.B")] "a.A" (.base 0 (some "a.A")) ∧
    register (after .empty [.base 0 (some "a.A"), .base 1 (some "b.B")]) (.base 7 (some "a.A")) = .error .duplicate ∧
    (Cls.sub 9 none (.base 0 (some "a.A"))).kind = some "a.A" :=
  ⟨⟨[], [.base 1 (some "b.B")], rfl, rfl, by simp⟩, rfl, rfl⟩

end Verif.Serde.Registry
