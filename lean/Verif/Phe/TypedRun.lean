import Verif.Phe.Typed

/-!
# C94: running typed PHE programs

Programs of the user API on scalars, with several key pairs. `keygen_impl` returns one context object twice, so the public key of a
pair is the same run-time value as its private key.
-/

namespace Verif.Phe.Typed

/-- Numbers: python int or float. -/
inductive Num
  | int (v : Int)
  | flt (x : ℚ)
  deriving DecidableEq

/-- As an operand of the C61 handlers. -/
def Num.val {C : Type} : Num → Val C
  | .int v => .int v
  | .flt x => .flt x

/-- Run-time values: numbers (raw or encoded), encoders, key contexts (by number of the pair) and ciphertexts with the context
they carry (`WrappedCiphertext`). /repo/mplang/backends/phe_impl.py:28-75 -/
inductive V (C : Type)
  | num (n : Num)
  | encoder (fxp : Nat)
  | key (pair : Nat)
  | ct (pair : Nat) (c : C)

/-- Operations with the positions of their operands; `rnd` is the randomness used. -/
inductive Instr
  | encode (x enc : Nat)
  | decode (x enc : Nat)
  | encrypt (x pk rnd : Nat)
  | decrypt (x sk : Nat)
  | add (a b rnd : Nat)
  | mul (a b : Nat)
  deriving DecidableEq, Repr

/-- Run-time errors: those of the handlers, and a missing operand. -/
inductive RErr
  | handler (e : Err)
  | unbound
  deriving DecidableEq

variable {C : Type}

/-- `encode_impl`. /repo/mplang/backends/phe_impl.py:95-99 -/
def encodeV : V C → V C → Except RErr (V C)
  | .num n, .encoder k =>
    match Phe.encode (C := Unit) n.val (.encoder k) with
    | .ok (.int v) => .ok (.num (.int v))
    | .ok (.flt v) => .ok (.num (.flt v))
    | .ok _ => .error (.handler .type)
    | .error e => .error (.handler e)
  | _, .encoder _ => .error (.handler .type)
  | _, _ => .error (.handler .attribute)

/-- `decode_impl`. /repo/mplang/backends/phe_impl.py:102-106 -/
def decodeV : V C → V C → Except RErr (V C)
  | .num n, .encoder k =>
    match Phe.decode (C := Unit) n.val (.encoder k) with
    | .ok (.int v) => .ok (.num (.int v))
    | .ok (.flt v) => .ok (.num (.flt v))
    | .ok _ => .error (.handler .type)
    | .error e => .error (.handler e)
  | _, .encoder _ => .error (.handler .type)
  | _, _ => .error (.handler .attribute)

/-- `encrypt_impl`. /repo/mplang/backends/phe_impl.py:109-114 -/
def encryptV (L : Nat → PheLib C) (rnd : Nat) : V C → V C → Except RErr (V C)
  | .num (.int v), .key k => .ok (.ct k ((L k).enc rnd v))
  | _, .key _ => .error (.handler .type)
  | _, _ => .error (.handler .attribute)

/-- `decrypt_impl`: the context of the key decrypts, whatever context the ciphertext carries.
/repo/mplang/backends/phe_impl.py:117-121 -/
def decryptV (L : Nat → PheLib C) : V C → V C → Except RErr (V C)
  | .ct _ c, .key k => .ok (.num (.int ((L k).dec c)))
  | _, _ => .error (.handler .attribute)

/-- `WrappedCiphertext.__add__` and its reverse for a number first: the dialect puts the ciphertext first
(/repo/mplang/dialects/phe.py:641-647). /repo/mplang/backends/phe_impl.py:57-68, 124-139 -/
def addV (L : Nat → PheLib C) (rnd : Nat) : V C → V C → Except RErr (V C)
  | .ct k a, .ct _ b => .ok (.ct k ((L k).add a b))
  | .ct k a, .num (.int v) => .ok (.ct k ((L k).add a ((L k).enc rnd v)))
  | .num (.int v), .ct k a => .ok (.ct k ((L k).add a ((L k).enc rnd v)))
  | _, _ => .error (.handler .type)

/-- `WrappedCiphertext.__mul__`. /repo/mplang/backends/phe_impl.py:70-75, 142-148; /repo/mplang/dialects/phe.py:679-686 -/
def mulV (L : Nat → PheLib C) : V C → V C → Except RErr (V C)
  | .ct k a, .num (.int v) => .ok (.ct k ((L k).mul a v))
  | .num (.int v), .ct k a => .ok (.ct k ((L k).mul a v))
  | _, _ => .error (.handler .type)

/-- The operand at a position. -/
def fetch {α : Type} (env : List α) (i : Nat) : Except RErr α :=
  match env[i]? with
  | some v => .ok v
  | none => .error .unbound

/-- One operation. -/
def step (L : Nat → PheLib C) (env : List (V C)) : Instr → Except RErr (V C)
  | .encode x e => do encodeV (← fetch env x) (← fetch env e)
  | .decode x e => do decodeV (← fetch env x) (← fetch env e)
  | .encrypt x k rnd => do encryptV L rnd (← fetch env x) (← fetch env k)
  | .decrypt x k => do decryptV L (← fetch env x) (← fetch env k)
  | .add a b rnd => do addV L rnd (← fetch env a) (← fetch env b)
  | .mul a b => do mulV L (← fetch env a) (← fetch env b)

/-- A program: every operation adds its result to the values. -/
def run (L : Nat → PheLib C) : List (V C) → List Instr → Except RErr (List (V C))
  | env, [] => .ok env
  | env, i :: is => do
    let v ← step L env i
    run L (env ++ [v]) is

/-- The type of an operation's result; `none` when the program refers to a missing value. -/
def tyStep (Γ : List Ty) : Instr → Option (Except TErr Ty)
  | .encode x e => do pure (unary encodeRule (← Γ[x]?) (← Γ[e]?))
  | .decode x e => do pure (unary decodeRule (← Γ[x]?) (← Γ[e]?))
  | .encrypt x k _ => do pure (unary encryptRule (← Γ[x]?) (← Γ[k]?))
  | .decrypt x k => do pure (unary decryptRule (← Γ[x]?) (← Γ[k]?))
  | .add a b _ => do pure (addTy (← Γ[a]?) (← Γ[b]?))
  | .mul a b => do pure (mulTy (← Γ[a]?) (← Γ[b]?))

/-- The program is accepted, with these types. -/
def tyRun : List Ty → List Instr → Option (List Ty)
  | Γ, [] => some Γ
  | Γ, i :: is =>
    match tyStep Γ i with
    | some (.ok t) => tyRun (Γ ++ [t]) is
    | _ => none

/-! ### Specification: arithmetic on integers -/

/-- What a value stands for: a number, an encoder, a key, or a secret integer. -/
inductive Sem
  | num (n : Num)
  | encoder (fxp : Nat)
  | key
  | secret (v : Int)

/-- What each operation means, `n` being the modulus of the key: only decryption reduces. -/
def meaning (n : Nat) (env : List Sem) : Instr → Except RErr Sem
  | .encode x e => do
    match ← fetch env x, ← fetch env e with
    | .num a, .encoder k =>
      match Phe.encode (C := Unit) a.val (.encoder k) with
      | .ok (.int v) => .ok (.num (.int v))
      | .ok (.flt v) => .ok (.num (.flt v))
      | .ok _ => .error (.handler .type)
      | .error e => .error (.handler e)
    | _, .encoder _ => .error (.handler .type)
    | _, _ => .error (.handler .attribute)
  | .decode x e => do
    match ← fetch env x, ← fetch env e with
    | .num a, .encoder k =>
      match Phe.decode (C := Unit) a.val (.encoder k) with
      | .ok (.int v) => .ok (.num (.int v))
      | .ok (.flt v) => .ok (.num (.flt v))
      | .ok _ => .error (.handler .type)
      | .error e => .error (.handler e)
    | _, .encoder _ => .error (.handler .type)
    | _, _ => .error (.handler .attribute)
  | .encrypt x k _ => do
    match ← fetch env x, ← fetch env k with
    | .num (.int v), .key => .ok (.secret v)
    | _, .key => .error (.handler .type)
    | _, _ => .error (.handler .attribute)
  | .decrypt x k => do
    match ← fetch env x, ← fetch env k with
    | .secret v, .key => .ok (.num (.int (v % n)))
    | _, _ => .error (.handler .attribute)
  | .add a b _ => do
    match ← fetch env a, ← fetch env b with
    | .secret v, .secret w => .ok (.secret (v + w))
    | .secret v, .num (.int w) => .ok (.secret (v + w))
    | .num (.int v), .secret w => .ok (.secret (v + w))
    | _, _ => .error (.handler .type)
  | .mul a b => do
    match ← fetch env a, ← fetch env b with
    | .secret v, .num (.int w) => .ok (.secret (v * w))
    | .num (.int v), .secret w => .ok (.secret (v * w))
    | _, _ => .error (.handler .type)

/-- What a program means. -/
def meanings (n : Nat) : List Sem → List Instr → Except RErr (List Sem)
  | env, [] => .ok env
  | env, i :: is => do
    let v ← meaning n env i
    meanings n (env ++ [v]) is

/-- A value stands for a meaning, the only key pair being `k`. -/
def Rel (L : Nat → PheLib C) (k : Nat) : V C → Sem → Prop
  | .num a, .num b => a = b
  | .encoder a, .encoder b => a = b
  | .key i, .key => i = k
  | .ct i c, .secret v => i = k ∧ (L k).dec c = v % (L k).n
  | _, _ => False

/-- The two outcomes agree. -/
def Agree {α β : Type} (R : α → β → Prop) : Except RErr α → Except RErr β → Prop
  | .ok a, .ok b => R a b
  | .error e, .error e' => e = e'
  | _, _ => False

theorem agree_bind {α β γ δ : Type} {R : α → β → Prop} {S : γ → δ → Prop} {x : Except RErr α} {y : Except RErr β}
    {f : α → Except RErr γ} {g : β → Except RErr δ} (h : Agree R x y) (hf : ∀ a b, R a b → Agree S (f a) (g b)) :
    Agree S (x >>= f) (y >>= g) := by
  cases x with
  | error e => cases y with
    | error e' => exact h
    | ok b => exact h.elim
  | ok a => cases y with
    | error e' => exact h.elim
    | ok b => exact hf a b h

theorem fetch_agree {α β : Type} {R : α → β → Prop} {xs : List α} {ys : List β} (h : List.Forall₂ R xs ys) (i : Nat) :
    Agree R (fetch xs i) (fetch ys i) := by
  unfold fetch
  induction h generalizing i with
  | nil => simp [Agree]
  | cons hab _ ih =>
    cases i with
    | zero => simpa [Agree] using hab
    | succ j => simpa using ih j

theorem forall₂_snoc {α β : Type} {R : α → β → Prop} {xs : List α} {ys : List β} (h : List.Forall₂ R xs ys) {a : α} {b : β} (hab : R a b) :
    List.Forall₂ R (xs ++ [a]) (ys ++ [b]) := List.rel_append h (.cons hab .nil)

theorem step_sound {L : Nat → PheLib C} {k : Nat} (ok : (L k).Ok) {env : List (V C)} {sem : List Sem}
    (h : List.Forall₂ (Rel L k) env sem) (i : Instr) : Agree (Rel L k) (step L env i) (meaning (L k).n sem i) := by
  cases i with
  | encode x e =>
    refine agree_bind (fetch_agree h x) fun a a' ha => agree_bind (fetch_agree h e) fun b b' hb => ?_
    cases a <;> cases a' <;> simp only [Rel] at ha <;> cases b <;> cases b' <;> simp only [Rel] at hb <;>
      simp only [encodeV, Agree]
    subst ha hb
    cases Phe.encode (C := Unit) _ _ with
    | error e => simp [Agree]
    | ok v => cases v <;> simp [Agree, Rel]
  | decode x e =>
    refine agree_bind (fetch_agree h x) fun a a' ha => agree_bind (fetch_agree h e) fun b b' hb => ?_
    cases a <;> cases a' <;> simp only [Rel] at ha <;> cases b <;> cases b' <;> simp only [Rel] at hb <;>
      simp only [decodeV, Agree]
    subst ha hb
    cases Phe.decode (C := Unit) _ _ with
    | error e => simp [Agree]
    | ok v => cases v <;> simp [Agree, Rel]
  | encrypt x kk rnd =>
    refine agree_bind (fetch_agree h x) fun a a' ha => agree_bind (fetch_agree h kk) fun b b' hb => ?_
    cases a <;> cases a' <;> simp only [Rel] at ha <;> cases b <;> cases b' <;> simp only [Rel] at hb <;>
      simp only [encryptV, Agree]
    cases hb
    cases ha
    rename_i n
    cases n <;> simp [Agree, Rel, ok.dec_enc]
  | decrypt x kk =>
    refine agree_bind (fetch_agree h x) fun a a' ha => agree_bind (fetch_agree h kk) fun b b' hb => ?_
    cases a <;> cases a' <;> simp only [Rel] at ha <;> cases b <;> cases b' <;> simp only [Rel] at hb <;>
      simp only [decryptV, Agree, Rel]
    rw [hb, ha.2]
  | add x y rnd =>
    refine agree_bind (fetch_agree h x) fun a a' ha => agree_bind (fetch_agree h y) fun b b' hb => ?_
    cases a <;> cases a' <;> simp only [Rel] at ha <;> cases b <;> cases b' <;> simp only [Rel] at hb <;>
      simp only [addV, Agree, Rel]
    · subst ha
      obtain ⟨e, hb⟩ := hb
      cases e
      rename_i n _ _
      cases n <;> simp only [Agree, Rel, ok.dec_add, ok.dec_enc, hb, true_and]
      rw [← Int.add_emod, Int.add_comm]
    · subst hb
      obtain ⟨e, ha⟩ := ha
      cases e
      rename_i n
      cases n <;> simp only [Agree, Rel, ok.dec_add, ok.dec_enc, ha, true_and]
      rw [← Int.add_emod]
    · obtain ⟨rfl, ha⟩ := ha
      obtain ⟨_, hb⟩ := hb
      simp only [ok.dec_add, ha, hb, true_and]
      rw [← Int.add_emod]
  | mul x y =>
    refine agree_bind (fetch_agree h x) fun a a' ha => agree_bind (fetch_agree h y) fun b b' hb => ?_
    cases a <;> cases a' <;> simp only [Rel] at ha <;> cases b <;> cases b' <;> simp only [Rel] at hb <;>
      simp only [mulV, Agree, Rel]
    · subst ha
      obtain ⟨e, hb⟩ := hb
      cases e
      rename_i n _ _
      cases n <;> simp only [Agree, Rel, ok.dec_mul, hb, true_and]
      rw [Int.mul_emod, Int.emod_emod, ← Int.mul_emod, Int.mul_comm]
    · subst hb
      obtain ⟨e, ha⟩ := ha
      cases e
      rename_i n
      cases n <;> simp only [Agree, Rel, ok.dec_mul, ha, true_and]
      rw [Int.mul_emod, Int.emod_emod, ← Int.mul_emod]

/-- **C94** With one key pair, every program computes on the ciphertexts what its meaning computes on integers, decryption giving the
remainder modulo the key's modulus, and raises exactly the errors of its meaning. -/
theorem phe_program_sound {L : Nat → PheLib C} {k : Nat} (ok : (L k).Ok) (prog : List Instr) :
    ∀ (env : List (V C)) (sem : List Sem), List.Forall₂ (Rel L k) env sem →
      Agree (List.Forall₂ (Rel L k)) (run L env prog) (meanings (L k).n sem prog) := by
  induction prog with
  | nil => intro env sem h; exact h
  | cons i is ih =>
    intro env sem h
    exact agree_bind (step_sound ok h i) fun a b hab => ih _ _ (forall₂_snoc h hab)

/-! ### Types and run-time values -/

/-- A value has a type: raw scalars are numbers, encoded integers are integers, ciphertexts are ciphertexts, keys of both kinds are
contexts. Tensors have no scalar values. -/
def Has : V C → Ty → Prop
  | .num _, .plain (.raw _) => True
  | .num (.int _), .plain (.pt _) => True
  | .encoder _, .plain .encoder => True
  | .key _, .plain (.key _ _) => True
  | .ct _ _, .plain (.ct _) => True
  | _, _ => False

theorem direct_ok {rule : Elem → Elem → Except TErr Elem} {a b : Ty} {t : Ty} (h : direct rule a b = .ok t) :
    ∃ x y e, a = .plain x ∧ b = .plain y ∧ t = .plain e ∧ rule x y = .ok e := by
  cases a <;> cases b <;> simp only [direct, reduceCtorEq] at h
  rename_i x y
  cases hr : rule x y with
  | error e => simp [hr] at h
  | ok e => simp only [hr, Except.ok.injEq] at h; exact ⟨x, y, e, rfl, rfl, h.symm, hr⟩

theorem unary_plain {rule : Elem → Elem → Except TErr Elem} {x : Elem} {b t : Ty} (h : unary rule (.plain x) b = .ok t) :
    ∃ y e, b = .plain y ∧ t = .plain e ∧ rule x y = .ok e := by
  obtain ⟨x', y, e, e1, e2, e3, e4⟩ := direct_ok (a := .plain x) h
  cases e1
  exact ⟨y, e, e2, e3, e4⟩

theorem has_plain {v : V C} {t : Ty} (h : Has v t) : ∃ x, t = .plain x := by
  cases t with
  | plain x => exact ⟨x, rfl⟩
  | tensor x s => cases v <;> simp [Has] at h

theorem layout_plain {x y : Elem} {t : Ty} (h : Layout (.plain x) (.plain y) t) : ∃ e, t = .plain e := by
  cases t with
  | plain e => exact ⟨e, rfl⟩
  | tensor e s => simp [Layout, Ty.shape?] at h

/-- What a step may do: a value of the declared type, or an overflow. -/
def Good (t : Ty) : Except RErr (V C) → Prop
  | .ok v => Has v t
  | .error e => e = .handler .overflow

/-- The operation encodes something already encrypted. -/
def EncodesCiphertext (Γ : List Ty) : Instr → Prop
  | .encode x _ => ∃ s, Γ[x]? = some (.plain (.ct s))
  | _ => False

theorem encode_num {a : Num} {k : Nat} :
    (∃ v, Phe.encode (C := Unit) a.val (.encoder k) = .ok (.int v)) ∨ Phe.encode (C := Unit) a.val (.encoder k) = .error .overflow := by
  cases a with
  | int v =>
    simp only [Num.val, Phe.encode]
    unfold floatOfInt
    simp only
    split
    · next w hw =>
      split
      · exact .inl ⟨_, rfl⟩
      · exact .inr rfl
    · next e he =>
      split at he
      · cases he
      · cases he; exact .inr rfl
  | flt x =>
    simp only [Num.val, Phe.encode]
    split
    · exact .inl ⟨_, rfl⟩
    · exact .inr rfl

theorem decode_num {a : Num} {k : Nat} :
    (∃ v, Phe.decode (C := Unit) a.val (.encoder k) = .ok (.flt v)) ∨ Phe.decode (C := Unit) a.val (.encoder k) = .error .overflow := by
  cases a with
  | int v =>
    simp only [Num.val, Phe.decode]
    unfold floatOfInt
    simp only
    split
    · exact .inl ⟨_, rfl⟩
    · next e he =>
      split at he
      · cases he
      · cases he; exact .inr rfl
  | flt x =>
    simp only [Num.val, Phe.decode]
    exact .inl ⟨_, rfl⟩

theorem rel_get? {α β : Type} {R : α → β → Prop} {xs : List α} {ys : List β} (h : List.Forall₂ R xs ys) {i : Nat} {b : β} (hb : ys[i]? = some b) :
    ∃ a, xs[i]? = some a ∧ R a b := by
  induction h generalizing i with
  | nil => simp at hb
  | cons hab _ ih =>
    cases i with
    | zero => simp only [List.getElem?_cons_zero, Option.some.injEq] at hb ⊢; exact ⟨_, rfl, hb ▸ hab⟩
    | succ j => simpa using ih (by simpa using hb)

theorem two_operands {Γ : List Ty} {i j : Nat} {f : Ty → Ty → Except TErr Ty} {t : Ty}
    (h : (do pure (f (← Γ[i]?) (← Γ[j]?)) : Option (Except TErr Ty)) = some (.ok t)) :
    ∃ a b, Γ[i]? = some a ∧ Γ[j]? = some b ∧ f a b = .ok t := by
  cases hi : Γ[i]? with
  | none => simp [hi, bind, Option.bind] at h
  | some a =>
    cases hj : Γ[j]? with
    | none => simp [hi, hj, bind, Option.bind] at h
    | some b =>
      simp only [hi, hj, bind, Option.bind, pure, Option.some.injEq] at h
      exact ⟨a, b, rfl, rfl, h⟩

theorem encodeRule_ok {a b e : Elem} (h : encodeRule a b = .ok e) : b = .encoder ∧ a.scalar = true ∧ e = .pt 64 := by
  cases b <;> simp only [encodeRule, reduceCtorEq] at h
  split at h
  · next hs => cases h; exact ⟨rfl, hs, rfl⟩
  · cases h

theorem decodeRule_ok {a b e : Elem} (h : decodeRule a b = .ok e) : b = .encoder ∧ (∃ n, a = .pt n) ∧ e = .raw "f64" := by
  cases a <;> cases b <;> simp [decodeRule] at h
  exact ⟨rfl, ⟨_, rfl⟩, h.symm⟩

theorem encryptRule_ok {a b e : Elem} (h : encryptRule a b = .ok e) : ∃ n s, a = .pt n ∧ b = .key s true ∧ e = .ct s := by
  cases a <;> cases b <;> simp [encryptRule] at h
  rename_i n s pub
  cases pub <;> simp at h
  exact ⟨n, s, rfl, rfl, h.symm⟩

theorem decryptRule_ok {a b e : Elem} (h : decryptRule a b = .ok e) : ∃ s s', a = .ct s ∧ b = .key s' false ∧ e = .pt 64 := by
  cases a <;> cases b <;> simp [decryptRule] at h
  rename_i s s' pub
  cases pub <;> simp at h
  exact ⟨s, s', rfl, rfl, h.symm⟩

theorem has_encoder {v : V C} (h : Has v (.plain .encoder)) : ∃ k, v = .encoder k := by
  cases v with
  | num n => cases n <;> simp [Has] at h
  | encoder k => exact ⟨k, rfl⟩
  | key k => simp [Has] at h
  | ct k c => simp [Has] at h

theorem has_key {v : V C} {s : String} {b : Bool} (h : Has v (.plain (.key s b))) : ∃ k, v = .key k := by
  cases v with
  | num n => cases n <;> simp [Has] at h
  | encoder k => simp [Has] at h
  | key k => exact ⟨k, rfl⟩
  | ct k c => simp [Has] at h

theorem has_ct {v : V C} {s : String} (h : Has v (.plain (.ct s))) : ∃ k c, v = .ct k c := by
  cases v with
  | num n => cases n <;> simp [Has] at h
  | encoder k => simp [Has] at h
  | key k => simp [Has] at h
  | ct k c => exact ⟨k, c, rfl⟩

theorem has_pt {v : V C} {n : Nat} (h : Has v (.plain (.pt n))) : ∃ i, v = .num (.int i) := by
  cases v with
  | num m => cases m with
    | int i => exact ⟨i, rfl⟩
    | flt x => simp [Has] at h
  | encoder k => simp [Has] at h
  | key k => simp [Has] at h
  | ct k c => simp [Has] at h

theorem has_raw {v : V C} {s : String} (h : Has v (.plain (.raw s))) : ∃ m, v = .num m := by
  cases v with
  | num m => exact ⟨m, rfl⟩
  | encoder k => simp [Has] at h
  | key k => simp [Has] at h
  | ct k c => simp [Has] at h

theorem step_typed {L : Nat → PheLib C} {env : List (V C)} {Γ : List Ty} (h : List.Forall₂ Has env Γ) {i : Instr} {t : Ty}
    (ht : tyStep Γ i = some (.ok t)) (hn : ¬ EncodesCiphertext Γ i) : Good t (step L env i) := by
  cases i with
  | encode x e =>
    obtain ⟨a, b, ha, hb, hr⟩ := two_operands ht
    obtain ⟨v, hv, hva⟩ := rel_get? h ha
    obtain ⟨w, hw, hwb⟩ := rel_get? h hb
    obtain ⟨p, rfl⟩ := has_plain hva
    obtain ⟨q, e', rfl, rfl, hru⟩ := unary_plain hr
    obtain ⟨rfl, hsc, rfl⟩ := encodeRule_ok hru
    obtain ⟨k, rfl⟩ := has_encoder hwb
    simp only [step, fetch, hv, hw, bind, Except.bind]
    have : ∃ m, v = .num m := by
      cases p with
      | raw s => exact has_raw hva
      | pt n => obtain ⟨i, e⟩ := has_pt hva; exact ⟨_, e⟩
      | ct s => exact absurd ⟨s, ha⟩ hn
      | key s b => simp [Elem.scalar] at hsc
      | encoder => simp [Elem.scalar] at hsc
      | other s => simp [Elem.scalar] at hsc
    obtain ⟨m, rfl⟩ := this
    simp only [encodeV]
    rcases encode_num (a := m) (k := k) with ⟨u, hu⟩ | hu
    · rw [hu]; simp [Good, Has]
    · rw [hu]; simp [Good]
  | decode x e =>
    obtain ⟨a, b, ha, hb, hr⟩ := two_operands ht
    obtain ⟨v, hv, hva⟩ := rel_get? h ha
    obtain ⟨w, hw, hwb⟩ := rel_get? h hb
    obtain ⟨p, rfl⟩ := has_plain hva
    obtain ⟨q, e', rfl, rfl, hru⟩ := unary_plain hr
    obtain ⟨rfl, ⟨n, rfl⟩, rfl⟩ := decodeRule_ok hru
    obtain ⟨k, rfl⟩ := has_encoder hwb
    obtain ⟨i, rfl⟩ := has_pt hva
    simp only [step, fetch, hv, hw, bind, Except.bind, decodeV]
    rcases decode_num (a := .int i) (k := k) with ⟨u, hu⟩ | hu
    · rw [hu]; simp [Good, Has]
    · rw [hu]; simp [Good]
  | encrypt x k rnd =>
    obtain ⟨a, b, ha, hb, hr⟩ := two_operands ht
    obtain ⟨v, hv, hva⟩ := rel_get? h ha
    obtain ⟨w, hw, hwb⟩ := rel_get? h hb
    obtain ⟨p, rfl⟩ := has_plain hva
    obtain ⟨q, e', rfl, rfl, hru⟩ := unary_plain hr
    obtain ⟨n, s, rfl, rfl, rfl⟩ := encryptRule_ok hru
    obtain ⟨k, rfl⟩ := has_key hwb
    obtain ⟨i, rfl⟩ := has_pt hva
    simp [step, fetch, hv, hw, bind, Except.bind, encryptV, Good, Has]
  | decrypt x k =>
    obtain ⟨a, b, ha, hb, hr⟩ := two_operands ht
    obtain ⟨v, hv, hva⟩ := rel_get? h ha
    obtain ⟨w, hw, hwb⟩ := rel_get? h hb
    obtain ⟨p, rfl⟩ := has_plain hva
    obtain ⟨q, e', rfl, rfl, hru⟩ := unary_plain hr
    obtain ⟨s, s', rfl, rfl, rfl⟩ := decryptRule_ok hru
    obtain ⟨k, rfl⟩ := has_key hwb
    obtain ⟨k', c, rfl⟩ := has_ct hva
    simp [step, fetch, hv, hw, bind, Except.bind, decryptV, Good, Has]
  | add x y rnd =>
    obtain ⟨a, b, ha, hb, hr⟩ := two_operands ht
    obtain ⟨v, hv, hva⟩ := rel_get? h ha
    obtain ⟨w, hw, hwb⟩ := rel_get? h hb
    obtain ⟨p, rfl⟩ := has_plain hva
    obtain ⟨q, rfl⟩ := has_plain hwb
    obtain ⟨hl, s, e, hc⟩ := (add_type_iff _ _ _).1 hr
    obtain ⟨e', rfl⟩ := layout_plain hl
    simp only [Ty.elem] at e hc
    subst e
    simp only [step, fetch, hv, hw, bind, Except.bind]
    rcases hc with ⟨rfl, rfl⟩ | ⟨rfl, n, rfl⟩ | ⟨⟨n, rfl⟩, rfl⟩
    · obtain ⟨k, c, rfl⟩ := has_ct hva
      obtain ⟨k', c', rfl⟩ := has_ct hwb
      simp [addV, Good, Has]
    · obtain ⟨k, c, rfl⟩ := has_ct hva
      obtain ⟨i, rfl⟩ := has_pt hwb
      simp [addV, Good, Has]
    · obtain ⟨k, c, rfl⟩ := has_ct hwb
      obtain ⟨i, rfl⟩ := has_pt hva
      simp [addV, Good, Has]
  | mul x y =>
    obtain ⟨a, b, ha, hb, hr⟩ := two_operands ht
    obtain ⟨v, hv, hva⟩ := rel_get? h ha
    obtain ⟨w, hw, hwb⟩ := rel_get? h hb
    obtain ⟨p, rfl⟩ := has_plain hva
    obtain ⟨q, rfl⟩ := has_plain hwb
    obtain ⟨hl, s, e, hc⟩ := (mul_type_iff _ _ _).1 hr
    obtain ⟨e', rfl⟩ := layout_plain hl
    simp only [Ty.elem] at e hc
    subst e
    simp only [step, fetch, hv, hw, bind, Except.bind]
    rcases hc with ⟨rfl, n, rfl⟩ | ⟨⟨n, rfl⟩, rfl⟩
    · obtain ⟨k, c, rfl⟩ := has_ct hva
      obtain ⟨i, rfl⟩ := has_pt hwb
      simp [mulV, Good, Has]
    · obtain ⟨k, c, rfl⟩ := has_ct hwb
      obtain ⟨i, rfl⟩ := has_pt hva
      simp [mulV, Good, Has]

/-- No operation of the program encodes a ciphertext. -/
def NoReencode : List Ty → List Instr → Prop
  | _, [] => True
  | Γ, i :: is => ¬ EncodesCiphertext Γ i ∧ ∀ t, tyStep Γ i = some (.ok t) → NoReencode (Γ ++ [t]) is

/-- **C94** An accepted program on well-typed scalars runs to the end with values of the declared kinds, or stops because a number is
too large for a float; the one other failure is encoding a ciphertext. -/
theorem phe_types_sound_partial (L : Nat → PheLib C) (prog : List Instr) : ∀ (Γ Δ : List Ty) (env : List (V C)), List.Forall₂ Has env Γ →
    tyRun Γ prog = some Δ → NoReencode Γ prog →
    (∃ env', run L env prog = .ok env' ∧ List.Forall₂ Has env' Δ) ∨ run L env prog = .error (.handler .overflow) := by
  induction prog with
  | nil => intro Γ Δ env h ht _; simp only [tyRun, Option.some.injEq] at ht; subst ht; exact .inl ⟨env, rfl, h⟩
  | cons i is ih =>
    intro Γ Δ env h ht hn
    simp only [tyRun] at ht
    split at ht
    · next t hs =>
      have g := step_typed (L := L) h hs hn.1
      simp only [run, bind, Except.bind]
      cases hv : step L env i with
      | error e => rw [hv] at g; exact .inr (by simpa [Good] using g)
      | ok v => rw [hv] at g; exact ih _ _ _ (forall₂_snoc h g) ht (hn.2 t hs)
    · cases ht

/-- **C94** (violated) Encoding a ciphertext is accepted and raises a `TypeError`. -/
theorem encode_ct_violated (L : Nat → PheLib C) (s : String) (k : Nat) (c : C) (fxp : Nat) :
    tyRun [.plain (.ct s), .plain .encoder] [.encode 0 1] = some [.plain (.ct s), .plain .encoder, .plain (.pt 64)] ∧
    run L [.ct k c, .encoder fxp] [.encode 0 1] = .error (.handler .type) := ⟨rfl, rfl⟩

/-- **C94** (violated) The type of a decoded value is f64 whatever the encoder was made for: a program may encode an integer, and the
value that comes back is a float. -/
theorem decoded_type_violated (L : Nat → PheLib C) (v : Int) (fxp : Nat) (hv : v.natAbs < 2 ^ 53) (hb : v.natAbs * 2 ^ fxp < floatLimit) :
    ∃ Δ env', tyRun [.plain (.raw "i64"), .plain .encoder] [.encode 0 1, .decode 2 1] = some Δ ∧ Δ[3]? = some (.plain (.raw "f64")) ∧
      run L [.num (.int v), .encoder fxp] [.encode 0 1, .decode 2 1] = .ok env' ∧ ∃ x, env'[3]? = some (.num (.flt x)) := by
  obtain ⟨w, hw⟩ : ∃ w, Phe.encode (C := Unit) (.int v) (.encoder fxp) = .ok (.int w) := by
    have h1 : floatOfInt v = .ok v := by
      unfold floatOfInt
      simp only [roundNat_small hv]
      rw [if_pos (Nat.lt_trans hv floatLimit_gt)]
      congr 1
      split <;> omega
    exact ⟨_, by simp only [Phe.encode, h1]; rw [if_pos hb]⟩
  have hw2 : w = v * 2 ^ fxp := by
    have h1 : floatOfInt v = .ok v := by
      unfold floatOfInt
      simp only [roundNat_small hv]
      rw [if_pos (Nat.lt_trans hv floatLimit_gt)]
      congr 1
      split <;> omega
    simp only [Phe.encode, h1] at hw
    rw [if_pos hb] at hw
    simpa using hw.symm
  have h2 : ∃ z, floatOfInt w = .ok z := by
    unfold floatOfInt
    simp only
    have : w.natAbs = v.natAbs * 2 ^ fxp := by rw [hw2, Int.natAbs_mul, Int.natAbs_pow]; rfl
    rw [this, roundNat_shift (Nat.le_of_lt hv), if_pos hb]
    exact ⟨_, rfl⟩
  obtain ⟨z, hz⟩ := h2
  have hrun : run L [.num (.int v), .encoder fxp] [.encode 0 1, .decode 2 1] =
      .ok [.num (.int v), .encoder fxp, .num (.int w), .num (.flt ((z : ℚ) / 2 ^ fxp))] := by
    simp only [run, step, fetch, List.getElem?_cons_zero, List.getElem?_cons_succ, bind, Except.bind, encodeV, Num.val, hw, List.cons_append,
      List.nil_append, decodeV, Phe.decode, hz]
  exact ⟨_, _, rfl, rfl, hrun, _, rfl⟩

/-! ### Secrecy -/

/-- Two values that a holder of no private key cannot tell apart by looking: equal, unless both are ciphertexts under one key. -/
def Alike : V C → V C → Prop
  | .ct k _, .ct k' _ => k = k'
  | a, b => a = b

theorem alike_refl (a : V C) : Alike a a := by cases a <;> simp [Alike]

/-- No value of private key type is among the operands. -/
def NoPrivate (Γ : List Ty) : Prop := ∀ t ∈ Γ, ∀ s, t.elem ≠ .key s false

theorem alike_cases {a b : V C} (h : Alike a b) : a = b ∨ ∃ k c c', a = .ct k c ∧ b = .ct k c' := by
  cases a <;> cases b <;> simp only [Alike, reduceCtorEq] at h
  · exact .inl h
  · exact .inl h
  · exact .inl h
  · cases h; exact .inr ⟨_, _, _, rfl, rfl⟩

theorem agree_refl (x : Except RErr (V C)) : Agree Alike x x := by cases x <;> simp [Agree, alike_refl]

theorem addV_alike {L : Nat → PheLib C} {rnd : Nat} {a a' b b' : V C} (ha : Alike a a') (hb : Alike b b') :
    Agree Alike (addV L rnd a b) (addV L rnd a' b') := by
  rcases alike_cases ha with rfl | ⟨k, c, c', rfl, rfl⟩ <;> rcases alike_cases hb with rfl | ⟨k', d, d', rfl, rfl⟩
  · exact agree_refl _
  · cases a with
    | num n => cases n <;> simp [addV, Agree, Alike]
    | encoder k => simp [addV, Agree]
    | key k => simp [addV, Agree]
    | ct k c => simp [addV, Agree, Alike]
  · cases b with
    | num n => cases n <;> simp [addV, Agree, Alike]
    | encoder k => simp [addV, Agree]
    | key k => simp [addV, Agree]
    | ct k c => simp [addV, Agree, Alike]
  · simp [addV, Agree, Alike]

theorem mulV_alike {L : Nat → PheLib C} {a a' b b' : V C} (ha : Alike a a') (hb : Alike b b') :
    Agree Alike (mulV L a b) (mulV L a' b') := by
  rcases alike_cases ha with rfl | ⟨k, c, c', rfl, rfl⟩ <;> rcases alike_cases hb with rfl | ⟨k', d, d', rfl, rfl⟩
  · exact agree_refl _
  · cases a with
    | num n => cases n <;> simp [mulV, Agree, Alike]
    | encoder k => simp [mulV, Agree]
    | key k => simp [mulV, Agree]
    | ct k c => simp [mulV, Agree]
  · cases b with
    | num n => cases n <;> simp [mulV, Agree, Alike]
    | encoder k => simp [mulV, Agree]
    | key k => simp [mulV, Agree]
    | ct k c => simp [mulV, Agree]
  · simp [mulV, Agree]

theorem encodeV_alike {a a' b b' : V C} (ha : Alike a a') (hb : Alike b b') : Agree Alike (encodeV a b) (encodeV a' b') := by
  rcases alike_cases ha with rfl | ⟨k, c, c', rfl, rfl⟩ <;> rcases alike_cases hb with rfl | ⟨k', d, d', rfl, rfl⟩
  · exact agree_refl _
  · cases a <;> simp [encodeV, Agree]
  · cases b <;> simp [encodeV, Agree]
  · simp [encodeV, Agree]

theorem decodeV_alike {a a' b b' : V C} (ha : Alike a a') (hb : Alike b b') : Agree Alike (decodeV a b) (decodeV a' b') := by
  rcases alike_cases ha with rfl | ⟨k, c, c', rfl, rfl⟩ <;> rcases alike_cases hb with rfl | ⟨k', d, d', rfl, rfl⟩
  · exact agree_refl _
  · cases a <;> simp [decodeV, Agree]
  · cases b <;> simp [decodeV, Agree]
  · simp [decodeV, Agree]

theorem encryptV_alike {L : Nat → PheLib C} {rnd : Nat} {a a' b b' : V C} (ha : Alike a a') (hb : Alike b b') :
    Agree Alike (encryptV L rnd a b) (encryptV L rnd a' b') := by
  rcases alike_cases ha with rfl | ⟨k, c, c', rfl, rfl⟩ <;> rcases alike_cases hb with rfl | ⟨k', d, d', rfl, rfl⟩
  · exact agree_refl _
  · cases a with
    | num n => cases n <;> simp [encryptV, Agree]
    | encoder k => simp [encryptV, Agree]
    | key k => simp [encryptV, Agree]
    | ct k c => simp [encryptV, Agree]
  · cases b <;> simp [encryptV, Agree]
  · simp [encryptV, Agree]

/-- Without a private key type among the operands no decryption is accepted. -/
theorem decrypt_needs_private {Γ : List Ty} {x k : Nat} {t : Ty} (ht : tyStep Γ (.decrypt x k) = some (.ok t)) : ¬ NoPrivate Γ := by
  intro hp
  obtain ⟨a, b, ha, hb, hr⟩ := two_operands ht
  have hb' := hp b (List.mem_of_getElem? hb)
  cases a with
  | plain p =>
    obtain ⟨q, e', rfl, rfl, hru⟩ := unary_plain hr
    obtain ⟨s, s', rfl, rfl, rfl⟩ := decryptRule_ok hru
    exact hb' s' rfl
  | tensor p sh =>
    obtain ⟨hr, -⟩ := (lift_iff _ _ _ _).1 hr
    obtain ⟨s, s', -, e, -⟩ := decryptRule_ok hr
    exact hb' s' e

theorem step_alike {L : Nat → PheLib C} {Γ : List Ty} {e1 e2 : List (V C)} (h : List.Forall₂ Alike e1 e2) (hp : NoPrivate Γ) {i : Instr} {t : Ty}
    (ht : tyStep Γ i = some (.ok t)) : Agree Alike (step L e1 i) (step L e2 i) := by
  cases i with
  | encode x e => exact agree_bind (fetch_agree h x) fun a a' ha => agree_bind (fetch_agree h e) fun b b' hb => encodeV_alike ha hb
  | decode x e => exact agree_bind (fetch_agree h x) fun a a' ha => agree_bind (fetch_agree h e) fun b b' hb => decodeV_alike ha hb
  | encrypt x k rnd => exact agree_bind (fetch_agree h x) fun a a' ha => agree_bind (fetch_agree h k) fun b b' hb => encryptV_alike ha hb
  | decrypt x k => exact absurd hp (decrypt_needs_private ht)
  | add x y rnd => exact agree_bind (fetch_agree h x) fun a a' ha => agree_bind (fetch_agree h y) fun b b' hb => addV_alike ha hb
  | mul x y => exact agree_bind (fetch_agree h x) fun a a' ha => agree_bind (fetch_agree h y) fun b b' hb => mulV_alike ha hb

/-- No operation yields a key. -/
theorem tyStep_noPrivate {Γ : List Ty} {i : Instr} {t : Ty} (ht : tyStep Γ i = some (.ok t)) (s : String) : t.elem ≠ .key s false := by
  have un : ∀ {rule : Elem → Elem → Except TErr Elem} {a b : Ty}, (∀ x y e, rule x y = .ok e → e ≠ .key s false) →
      unary rule a b = .ok t → t.elem ≠ .key s false := by
    intro rule a b hr h
    cases a with
    | plain p => obtain ⟨q, e', rfl, rfl, hu⟩ := unary_plain h; exact hr _ _ _ hu
    | tensor p sh => exact hr _ _ _ ((lift_iff _ _ _ _).1 h).1
  cases i with
  | encode x e =>
    obtain ⟨a, b, ha, hb, hr⟩ := two_operands ht
    exact un (fun x y e h => by rw [(encodeRule_ok h).2.2]; simp) hr
  | decode x e =>
    obtain ⟨a, b, ha, hb, hr⟩ := two_operands ht
    exact un (fun x y e h => by rw [(decodeRule_ok h).2.2]; simp) hr
  | encrypt x k rnd =>
    obtain ⟨a, b, ha, hb, hr⟩ := two_operands ht
    exact un (fun x y e h => by obtain ⟨_, _, _, _, e⟩ := encryptRule_ok h; rw [e]; simp) hr
  | decrypt x k =>
    obtain ⟨a, b, ha, hb, hr⟩ := two_operands ht
    exact un (fun x y e h => by obtain ⟨_, _, _, _, e⟩ := decryptRule_ok h; rw [e]; simp) hr
  | add x y rnd =>
    obtain ⟨a, b, ha, hb, hr⟩ := two_operands ht
    obtain ⟨_, _, e, _⟩ := (add_type_iff _ _ _).1 hr
    rw [e]; simp
  | mul x y =>
    obtain ⟨a, b, ha, hb, hr⟩ := two_operands ht
    obtain ⟨_, _, e, _⟩ := (mul_type_iff _ _ _).1 hr
    rw [e]; simp

/-- **C94** A program accepted without a private key reveals nothing about what is encrypted: whatever the ciphertexts among its inputs
are, it ends the same way, and all its values that are not ciphertexts are the same. -/
theorem phe_secrecy (L : Nat → PheLib C) (prog : List Instr) : ∀ (Γ Δ : List Ty) (e1 e2 : List (V C)), NoPrivate Γ →
    tyRun Γ prog = some Δ → List.Forall₂ Alike e1 e2 → Agree (List.Forall₂ Alike) (run L e1 prog) (run L e2 prog) := by
  induction prog with
  | nil => intro Γ Δ e1 e2 _ _ h; exact h
  | cons i is ih =>
    intro Γ Δ e1 e2 hp ht h
    simp only [tyRun] at ht
    split at ht
    · next t hs =>
      refine agree_bind (step_alike h hp hs) fun a b hab => ih (Γ ++ [t]) Δ _ _ ?_ ht (forall₂_snoc h hab)
      intro u hu s
      rcases List.mem_append.1 hu with hu | hu
      · exact hp u hu s
      · simp only [List.mem_singleton] at hu; subst hu; exact tyStep_noPrivate hs s
    · cases ht

/-- **C94** (violated) Only the type check stands between the holder of a public key and the contents: `keygen` returns the same
context object as public and as private key, and the handler decrypts with it. -/
theorem public_key_decrypts_violated {L : Nat → PheLib C} {k : Nat} (ok : (L k).Ok) (rnd : Nat) (v : Int) :
    ∃ c, step L [.num (.int v), .key k] (.encrypt 0 1 rnd) = .ok c ∧ decryptV L c (.key k) = .ok (.num (.int (v % (L k).n))) ∧
      tyStep [.plain (.ct "paillier"), .plain (.key "paillier" true)] (.decrypt 0 1) = some (.error .type) :=
  ⟨_, rfl, by simp [decryptV, ok.dec_enc], rfl⟩

/-! ### Several keys -/

/-- A scheme whose ciphertexts remember their key, and decrypt to garbage under another. -/
def twoKeys (n : Nat) (k : Nat) : PheLib (Nat × Int) where
  n := n
  enc := fun _ v => (k, v % n)
  dec := fun c => if c.1 = k then c.2 % n else (c.2 + 1) % n
  add := fun a b => (a.1, (a.2 + b.2) % n)
  mul := fun a v => (a.1, (a.2 * v) % n)

/-- **C94** (violated) The types of keys and ciphertexts name the scheme only: the sum of ciphertexts of two different keys is accepted,
and so is decrypting it with a third; the result is not the sum. -/
theorem mixed_keys_violated :
    (∃ Δ, tyRun [.plain (.ct "paillier"), .plain (.ct "paillier"), .plain (.key "paillier" false)] [.add 0 1 0, .decrypt 3 2] = some Δ) ∧
    (run (twoKeys 101) [.ct 0 ((twoKeys 101 0).enc 0 5), .ct 1 ((twoKeys 101 1).enc 0 7), .key 2] [.add 0 1 0, .decrypt 3 2]).toOption.bind (·[4]?)
      = some (.num (.int 13)) := ⟨⟨_, rfl⟩, rfl⟩

/-! ### Key generation -/

/-- `str.capitalize` on ASCII text: the first letter (`upperChar`) in upper case, the others (`lowerChar`) in lower case.
/repo/mplang/backends/phe_impl.py:35. -/
def upperChar (c : Char) : Char := if 'a' ≤ c ∧ c ≤ 'z' then Char.ofNat (c.toNat - 32) else c
/-- (see `upperChar`) /repo/mplang/backends/phe_impl.py:35 -/
def lowerChar (c : Char) : Char := if 'A' ≤ c ∧ c ≤ 'Z' then Char.ofNat (c.toNat + 32) else c
/-- `str.capitalize`. /repo/mplang/backends/phe_impl.py:35 -/
def capitalize : List Char → List Char
  | [] => []
  | c :: cs => upperChar c :: cs.map lowerChar

/-- The names LightPHE knows (compared exactly, hyphens and inner capitals included). -/
def lightPheNames : List String :=
  ["RSA", "ElGamal", "Exponential-ElGamal", "EllipticCurve-ElGamal", "Paillier", "Damgard-Jurik", "Okamoto-Uchiyama", "Benaloh",
   "Naccache-Stern", "Goldwasser-Micali"]

/-- `PHEContext`: the name is capitalised and handed to LightPHE. /repo/mplang/backends/phe_impl.py:31-34 -/
def keygenAccepts (scheme : String) : Bool := decide (String.ofList (capitalize scheme.toList) ∈ lightPheNames)

/-- **C94** (violated) Of the three schemes the documentation of `keygen` lists, only the first can be generated: the others are
capitalised to names the library does not know. /repo/mplang/dialects/phe.py:380-382 -/
theorem scheme_names_violated : keygenAccepts "paillier" = true ∧ keygenAccepts "elgamal" = false ∧ keygenAccepts "okamoto-uchiyama" = false := by
  decide +kernel

/-- the letters agree up to upper case in `c` -/
def SameLetter (c d : Char) : Prop := c = d ∨ ('a' ≤ d ∧ d ≤ 'z' ∧ c.toNat + 32 = d.toNat)

private theorem char_eq {a b : Char} (h : a.toNat = b.toNat) : a = b := by
  have := congrArg Char.ofNat h
  simpa using this

private theorem char_le {a b : Char} : a ≤ b ↔ a.toNat ≤ b.toNat := Iff.rfl

private theorem ofNat_toNat {n : Nat} (h : n < 55296) : (Char.ofNat n).toNat = n := by
  unfold Char.ofNat
  rw [dif_pos (show n.isValidChar from Or.inl (by omega))]
  rfl

private theorem lower_iff {c d : Char} (hd : 'a' ≤ d ∧ d ≤ 'z') : lowerChar c = d ↔ SameLetter c d := by
  unfold lowerChar SameLetter
  simp only [char_le, show 'a'.toNat = 97 from rfl, show 'z'.toNat = 122 from rfl, show 'A'.toNat = 65 from rfl,
    show 'Z'.toNat = 90 from rfl] at *
  split
  next h =>
    constructor
    · intro h'
      have := congrArg Char.toNat h'
      rw [ofNat_toNat (by omega)] at this
      exact .inr ⟨hd.1, hd.2, this⟩
    · rintro (rfl | h')
      · omega
      · apply char_eq; rw [ofNat_toNat (by omega)]; exact h'.2.2
  next h =>
    constructor
    · exact .inl
    · rintro (h' | h')
      · exact h'
      · omega

private theorem lower_ne {c d : Char} (hd : 'A' ≤ d ∧ d ≤ 'Z') : lowerChar c ≠ d := by
  intro h'
  unfold lowerChar at h'
  simp only [char_le, show 'A'.toNat = 65 from rfl, show 'Z'.toNat = 90 from rfl] at *
  split at h'
  next h =>
    have := congrArg Char.toNat h'
    rw [ofNat_toNat (by omega)] at this
    omega
  next h => subst h'; exact h hd

private theorem upper_iff {c d e : Char} (hd : 'a' ≤ d ∧ d ≤ 'z') (he : e.toNat + 32 = d.toNat) : upperChar c = e ↔ SameLetter c d := by
  unfold upperChar SameLetter
  simp only [char_le, show 'a'.toNat = 97 from rfl, show 'z'.toNat = 122 from rfl] at *
  split
  next h =>
    constructor
    · intro h'
      have := congrArg Char.toNat h'
      rw [ofNat_toNat (by omega)] at this
      exact .inl (char_eq (by omega))
    · rintro (rfl | h')
      · apply char_eq; rw [ofNat_toNat (by omega)]; omega
      · omega
  next h =>
    constructor
    · rintro rfl; exact .inr ⟨hd.1, hd.2, he⟩
    · rintro (rfl | h')
      · omega
      · exact char_eq (by omega)

private theorem capitalize_iff {e : Char} {ds : List Char} (d : Char) (hd : 'a' ≤ d ∧ d ≤ 'z') (he : e.toNat + 32 = d.toNat)
    (hds : ∀ x ∈ ds, 'a' ≤ x ∧ x ≤ 'z') (s : List Char) : capitalize s = e :: ds ↔ List.Forall₂ SameLetter s (d :: ds) := by
  cases s with
  | nil => simp [capitalize]
  | cons c cs =>
    simp only [capitalize, List.cons.injEq, upper_iff hd he, List.forall₂_cons]
    refine and_congr_right fun _ => ?_
    induction ds generalizing cs with
    | nil => cases cs <;> simp
    | cons x ds ih =>
      cases cs with
      | nil => simp
      | cons y cs =>
        simp only [List.map_cons, List.cons.injEq, List.forall₂_cons, lower_iff (hds x (.head _))]
        rw [ih (fun z hz => hds z (.tail _ hz)) cs]

private theorem capitalize_inner {s ds : List Char} {e x : Char} (hx : x ∈ ds) (h : 'A' ≤ x ∧ x ≤ 'Z') : capitalize s ≠ e :: ds := by
  cases s with
  | nil => simp [capitalize]
  | cons c cs =>
    intro h'
    simp only [capitalize, List.cons.injEq] at h'
    rw [← h'.2] at hx
    obtain ⟨y, _, hy⟩ := List.mem_map.1 hx
    exact lower_ne h hy

/-- **C94** (scheme names) A key pair can be generated exactly for the names `paillier` and `benaloh`, in upper or lower case. -/
theorem keygen_accepts_iff (scheme : String) :
    keygenAccepts scheme = true ↔ List.Forall₂ SameLetter scheme.toList ['p', 'a', 'i', 'l', 'l', 'i', 'e', 'r'] ∨
      List.Forall₂ SameLetter scheme.toList ['b', 'e', 'n', 'a', 'l', 'o', 'h'] := by
  have hm : ∀ n : String, String.ofList (capitalize scheme.toList) = n ↔ capitalize scheme.toList = n.toList := by
    intro n
    constructor
    · intro h; rw [← h, String.toList_ofList]
    · intro h; rw [h, String.ofList_toList]
  unfold keygenAccepts lightPheNames
  simp only [decide_eq_true_eq, List.mem_cons, List.not_mem_nil, or_false, hm]
  have h1 := capitalize_iff (e := 'P') (ds := ['a', 'i', 'l', 'l', 'i', 'e', 'r']) 'p' (by decide) (by decide) (by decide) scheme.toList
  have h2 := capitalize_iff (e := 'B') (ds := ['e', 'n', 'a', 'l', 'o', 'h']) 'b' (by decide) (by decide) (by decide) scheme.toList
  rw [← h1, ← h2]
  have n1 : capitalize scheme.toList ≠ "RSA".toList := capitalize_inner (x := 'S') (by decide) (by decide)
  have n2 : capitalize scheme.toList ≠ "ElGamal".toList := capitalize_inner (x := 'G') (by decide) (by decide)
  have n3 : capitalize scheme.toList ≠ "Exponential-ElGamal".toList := capitalize_inner (x := 'E') (by decide) (by decide)
  have n4 : capitalize scheme.toList ≠ "EllipticCurve-ElGamal".toList := capitalize_inner (x := 'C') (by decide) (by decide)
  have n5 : capitalize scheme.toList ≠ "Damgard-Jurik".toList := capitalize_inner (x := 'J') (by decide) (by decide)
  have n6 : capitalize scheme.toList ≠ "Okamoto-Uchiyama".toList := capitalize_inner (x := 'U') (by decide) (by decide)
  have n7 : capitalize scheme.toList ≠ "Naccache-Stern".toList := capitalize_inner (x := 'S') (by decide) (by decide)
  have n8 : capitalize scheme.toList ≠ "Goldwasser-Micali".toList := capitalize_inner (x := 'M') (by decide) (by decide)
  simp only [n1, n2, n3, n4, n5, n6, n7, n8, false_or, or_false]
  exact Iff.rfl

example : keygenAccepts "PAIllier" = true ∧ keygenAccepts "Damgard-Jurik" = false := by decide +kernel

/-- a program meeting the hypotheses of `phe_program_sound`, `phe_types_sound_partial` and (its first six operations) `phe_secrecy` -/
def demo : List Instr := [.encode 0 1, .encrypt 4 2 7, .encode 0 1, .add 5 6 1, .mul 4 7, .add 8 5 0, .decrypt 9 3, .decode 10 1]

def demoTy : List Ty := [.plain (.raw "f64"), .plain .encoder, .plain (.key "paillier" true), .plain (.key "paillier" false)]

example : (tyRun demoTy demo).isSome = true ∧ (tyRun (demoTy.take 3 ++ [.plain (.ct "paillier")]) (demo.take 6)).isSome = true ∧
    NoReencode demoTy demo := by
  refine ⟨by decide, by decide, ?_⟩
  simp only [demo, demoTy, NoReencode, EncodesCiphertext]
  refine ⟨by simp, fun t h => ?_⟩
  obtain rfl : t = .plain (.pt 64) := by simpa [tyStep, bind, Option.bind, unary, direct, encodeRule, Elem.scalar] using h.symm
  refine ⟨by simp, fun t h => ?_⟩
  refine ⟨by simp, fun t h => ?_⟩
  exact ⟨by simp, fun t h => ⟨by simp, fun t h => ⟨by simp, fun t h => ⟨by simp, fun t h => ⟨by simp, fun t h => trivial⟩⟩⟩⟩⟩

example : List.Forall₂ (Rel (fun _ => toyPhe 1000003) 0) [.num (.int 3), .encoder 2, .key 0, .key 0] [.num (.int 3), .encoder 2, .key, .key] ∧
    (toyPhe 1000003).Ok ∧ NoPrivate (demoTy.take 3 ++ [.plain (.ct "paillier")]) ∧
    List.Forall₂ (Alike (C := Int)) [.num (.int 3), .encoder 2, .key 0, .ct 0 5] [.num (.int 3), .encoder 2, .key 0, .ct 0 77] := by
  refine ⟨by simp [Rel], toyPhe_ok _ (by decide), ?_, by simp [Alike]⟩
  intro t ht s
  simp only [demoTy, List.take, List.cons_append, List.nil_append, List.mem_cons, List.not_mem_nil, or_false] at ht
  rcases ht with rfl | rfl | rfl | rfl <;> simp [Ty.elem]

end Verif.Phe.Typed
