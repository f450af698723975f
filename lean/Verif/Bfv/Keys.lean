import Verif.Bfv.Sound
import Mathlib.Tactic.Tauto

/-!
# C92: which keys an operation takes

Exact type rules of the key-taking operations and of arithmetic, and what the handlers do with a context of the wrong kind.
-/

namespace Verif.Bfv

theorem tyAt_ok {Γ : List Ty} {i : Nat} {t : Ty} : tyAt Γ i = .ok t ↔ Γ[i]? = some t := by
  unfold tyAt
  cases Γ[i]? <;> simp

theorem bind_iff {α β : Type} {x : Except Err α} {f : α → Except Err β} {b : β} : x >>= f = .ok b ↔ ∃ a, x = .ok a ∧ f a = .ok b := by
  constructor
  · exact bind_ok'
  · rintro ⟨a, rfl, h⟩; exact h

/-- **C92** Encoding takes an encoder and a vector (a matrix for the batched form) and gives plaintexts of the encoder's degree and the
tensor's element type, decoding takes the encoder and a plaintext and gives a vector of the plaintext's size. -/
theorem coding_types_iff (Γ : List Ty) (x enc : Nat) (ts : List Ty) :
    (tyStep Γ (.encode x enc) = .ok ts ↔ ∃ e n m, Γ[enc]? = some (.encoder n) ∧ Γ[x]? = some (.tensor e m) ∧ ts = [.plain e n]) ∧
    (tyStep Γ (.decode x enc) = .ok ts ↔ ∃ e n m, Γ[enc]? = some (.encoder m) ∧ Γ[x]? = some (.plain e n) ∧ ts = [.tensor e n]) := by
  constructor
  · simp only [tyStep, bind_iff, tyAt_ok]
    constructor
    · rintro ⟨t, ht, u, hu, h⟩
      split at h
      · next n e m => cases h; exact ⟨e, n, m, ht, hu, rfl⟩
      · cases h
      · cases h
    · rintro ⟨e, n, m, h, h', rfl⟩; exact ⟨_, h, _, h', rfl⟩
  · simp only [tyStep, bind_iff, tyAt_ok]
    constructor
    · rintro ⟨t, ht, u, hu, h⟩
      split at h
      · next m e n => cases h; exact ⟨e, n, m, ht, hu, rfl⟩
      · cases h
    · rintro ⟨e, n, m, h, h', rfl⟩; exact ⟨_, h, _, h', rfl⟩

example : tyStep [.encoder 8, .plain "i64" 4] (.decode 1 0) = .ok [.tensor "i64" 4] := by rfl

/-- **C92** Relinearisation and Galois keys are derived from private keys only, and keep the ring degree. -/
theorem derived_keys_iff (Γ : List Ty) (sk : Nat) (ts : List Ty) :
    (tyStep Γ (.relinKeys sk) = .ok ts ↔ ∃ n, Γ[sk]? = some (.key .priv n) ∧ ts = [.key .relin n]) ∧
    (tyStep Γ (.galoisKeys sk) = .ok ts ↔ ∃ n, Γ[sk]? = some (.key .priv n) ∧ ts = [.key .galois n]) := by
  constructor
  · simp only [tyStep, bind_iff, tyAt_ok]
    constructor
    · rintro ⟨t, ht, h⟩
      split at h
      · next n => cases h; exact ⟨n, ht, rfl⟩
      · cases h
    · rintro ⟨n, h, rfl⟩; exact ⟨_, h, rfl⟩
  · simp only [tyStep, bind_iff, tyAt_ok]
    constructor
    · rintro ⟨t, ht, h⟩
      split at h
      · next n => cases h; exact ⟨n, ht, rfl⟩
      · cases h
    · rintro ⟨n, h, rfl⟩; exact ⟨_, h, rfl⟩

/-- **C92** `encrypt` takes a plaintext and a public key, `decrypt` a ciphertext and a private key; the result has the operand's
element type and size. -/
theorem crypt_keys_iff (Γ : List Ty) (x k rnd : Nat) (ts : List Ty) :
    (tyStep Γ (.encrypt x k rnd) = .ok ts ↔ ∃ e n m, Γ[x]? = some (.plain e n) ∧ Γ[k]? = some (.key .pub m) ∧ ts = [.cipher e n]) ∧
    (tyStep Γ (.decrypt x k) = .ok ts ↔ ∃ e n m, Γ[x]? = some (.cipher e n) ∧ Γ[k]? = some (.key .priv m) ∧ ts = [.plain e n]) := by
  constructor
  · simp only [tyStep, bind_iff, tyAt_ok]
    constructor
    · rintro ⟨t, ht, u, hu, h⟩
      split at h
      · next e n m => cases h; exact ⟨e, n, m, ht, hu, rfl⟩
      · cases h
    · rintro ⟨e, n, m, h, h', rfl⟩; exact ⟨_, h, _, h', rfl⟩
  · simp only [tyStep, bind_iff, tyAt_ok]
    constructor
    · rintro ⟨t, ht, u, hu, h⟩
      split at h
      · next e n m => cases h; exact ⟨e, n, m, ht, hu, rfl⟩
      · cases h
    · rintro ⟨e, n, m, h, h', rfl⟩; exact ⟨_, h, _, h', rfl⟩

/-- **C92** `relinearize` takes relinearisation keys, rotations take Galois keys; the ciphertext keeps its type. -/
theorem evaluation_keys_iff (Γ : List Ty) (x k : Nat) (s : Int) (ts : List Ty) :
    (tyStep Γ (.relinearize x k) = .ok ts ↔ ∃ e n m, Γ[x]? = some (.cipher e n) ∧ Γ[k]? = some (.key .relin m) ∧ ts = [.cipher e n]) ∧
    (tyStep Γ (.rotate x k s) = .ok ts ↔ ∃ e n m, Γ[x]? = some (.cipher e n) ∧ Γ[k]? = some (.key .galois m) ∧ ts = [.cipher e n]) ∧
    (tyStep Γ (.rotateColumns x k) = .ok ts ↔ ∃ e n m, Γ[x]? = some (.cipher e n) ∧ Γ[k]? = some (.key .galois m) ∧ ts = [.cipher e n]) := by
  refine ⟨?_, ?_, ?_⟩
  all_goals
    simp only [tyStep, bind_iff, tyAt_ok]
    constructor
    · rintro ⟨t, ht, u, hu, h⟩
      split at h
      · next e n m => cases h; exact ⟨e, n, m, ht, hu, rfl⟩
      · cases h
    · rintro ⟨e, n, m, h, h', rfl⟩; exact ⟨_, h, _, h', rfl⟩

/-- What arithmetic accepts: a ciphertext and a second ciphertext or plaintext, whose type does not matter, or a plaintext and a
ciphertext; the result has the type of the (first) ciphertext. -/
def Arith (a b t : Ty) : Prop :=
  ∃ e n, t = .cipher e n ∧ ((a = .cipher e n ∧ ((∃ e' n', b = .cipher e' n') ∨ ∃ e' n', b = .plain e' n')) ∨
    ((∃ e' n', a = .plain e' n') ∧ b = .cipher e n))

theorem arithTy_iff (a b t : Ty) : arithTy a b = .ok t ↔ Arith a b t := by
  unfold Arith
  cases a <;> cases b <;> simp [arithTy]
  all_goals exact eq_comm

/-- **C92** The type rule of addition, subtraction and multiplication. -/
theorem arith_types_iff (Γ : List Ty) (a b rnd : Nat) (ts : List Ty) :
    (tyStep Γ (.add a b rnd) = .ok ts ↔ ∃ x y t, Γ[a]? = some x ∧ Γ[b]? = some y ∧ Arith x y t ∧ ts = [t]) ∧
    (tyStep Γ (.sub a b) = .ok ts ↔ ∃ x y t, Γ[a]? = some x ∧ Γ[b]? = some y ∧ Arith x y t ∧ ts = [t]) ∧
    (tyStep Γ (.mul a b rnd) = .ok ts ↔ ∃ x y t, Γ[a]? = some x ∧ Γ[b]? = some y ∧ Arith x y t ∧ ts = [t]) := by
  refine ⟨?_, ?_, ?_⟩
  all_goals
    simp only [tyStep, bind_iff, tyAt_ok, arithTy_iff, pure, Except.pure, Except.ok.injEq]
    constructor
    · rintro ⟨x, hx, y, hy, t, ht, rfl⟩; exact ⟨x, y, t, hx, hy, ht, rfl⟩
    · rintro ⟨x, y, t, hx, hy, ht, rfl⟩; exact ⟨x, hx, y, hy, t, ht, rfl⟩

/-- **C92** A program that starts without a private key type never gets one, so it decrypts nothing. -/
theorem no_private_no_decrypt (prog : List Instr) : ∀ (Γ Δ : List Ty), (∀ n, Ty.key .priv n ∉ Γ) → tyRun Γ prog = .ok Δ →
    (∀ n, Ty.key .priv n ∉ Δ) ∧ ∀ c k, Instr.decrypt c k ∉ prog := by
  induction prog with
  | nil => intro Γ Δ h hr; simp only [tyRun, Except.ok.injEq] at hr; subst hr; exact ⟨h, by simp⟩
  | cons i is ih =>
    intro Γ Δ h hr
    simp only [tyRun] at hr
    obtain ⟨ts, ht, hr⟩ := bind_ok' hr
    have hts : ∀ n, Ty.key .priv n ∉ ts := by
      intro n hm
      cases i with
      | relinKeys sk => obtain ⟨m, _, rfl⟩ := ((derived_keys_iff _ _ _).1).1 ht; simp at hm
      | galoisKeys sk => obtain ⟨m, _, rfl⟩ := ((derived_keys_iff _ _ _).2).1 ht; simp at hm
      | createEncoder d => simp only [tyStep, Except.ok.injEq] at ht; subst ht; simp at hm
      | encode x e =>
        simp only [tyStep, bind_iff, tyAt_ok] at ht
        obtain ⟨t, ht, u, hu, h'⟩ := ht
        split at h' <;> cases h'
        simp at hm
      | batchEncode x e k =>
        simp only [tyStep, bind_iff, tyAt_ok] at ht
        obtain ⟨t, ht, u, hu, h'⟩ := ht
        split at h' <;> cases h'
        simp [List.mem_replicate] at hm
      | encrypt x k rnd => obtain ⟨_, _, _, _, _, rfl⟩ := ((crypt_keys_iff _ x k rnd _).1).1 ht; simp at hm
      | decrypt x k => obtain ⟨_, _, _, _, _, rfl⟩ := ((crypt_keys_iff _ x k 0 _).2).1 ht; simp at hm
      | decode p e =>
        simp only [tyStep, bind_iff, tyAt_ok] at ht
        obtain ⟨t, ht, u, hu, h'⟩ := ht
        split at h' <;> cases h'
        simp at hm
      | add a b rnd => obtain ⟨_, _, _, _, _, ⟨_, _, rfl, _⟩, rfl⟩ := ((arith_types_iff _ a b rnd _).1).1 ht; simp at hm
      | sub a b => obtain ⟨_, _, _, _, _, ⟨_, _, rfl, _⟩, rfl⟩ := ((arith_types_iff _ a b 0 _).2.1).1 ht; simp at hm
      | mul a b rnd => obtain ⟨_, _, _, _, _, ⟨_, _, rfl, _⟩, rfl⟩ := ((arith_types_iff _ a b rnd _).2.2).1 ht; simp at hm
      | relinearize c k => obtain ⟨_, _, _, _, _, rfl⟩ := ((evaluation_keys_iff _ c k 0 _).1).1 ht; simp at hm
      | rotate c k s => obtain ⟨_, _, _, _, _, rfl⟩ := ((evaluation_keys_iff _ c k s _).2.1).1 ht; simp at hm
      | rotateColumns c k => obtain ⟨_, _, _, _, _, rfl⟩ := ((evaluation_keys_iff _ c k 0 _).2.2).1 ht; simp at hm
      | wire x =>
        simp only [tyStep, bind_iff, tyAt_ok, pure, Except.pure, Except.ok.injEq] at ht
        obtain ⟨t, ht, rfl⟩ := ht
        simp only [List.mem_singleton] at hm
        subst hm
        exact h n (List.mem_of_getElem? ht)
    obtain ⟨h1, h2⟩ := ih (Γ ++ ts) Δ (fun n hm => (List.mem_append.1 hm).elim (h n) (hts n)) hr
    refine ⟨h1, fun c k hm => ?_⟩
    rcases List.mem_cons.1 hm with e | hm
    · subst e
      obtain ⟨_, _, m, _, hk, _⟩ := ((crypt_keys_iff _ c k 0 _).2).1 ht
      exact h m (List.mem_of_getElem? hk)
    · exact h2 c k hm

/-- **C92** The decryption handler refuses every context without the secret key; an evaluation handler or encryption refuses a context
without keys. -/
theorem handler_needs_keys {C : Type} (L : Seal C) (env : List (Val L.t C)) (c k rnd : Nat) (s : Int) (v : Val L.t C) (ctx : Ctx)
    (hc : env[c]? = some v) (hk : env[k]? = some (.key ctx)) :
    (ctx.kind ≠ .secret → ∃ e, L.step env (.decrypt c k) = .error e) ∧
    (ctx.kind = .param → (∃ e, L.step env (.encrypt c k rnd) = .error e) ∧ ∃ e, L.step env (.rotateColumns c k) = .error e) := by
  have fc : fetch env c = .ok v := by simp [fetch, hc]
  have fk : fetch env k = .ok (.key ctx) := by simp [fetch, hk]
  refine ⟨fun h => ?_, fun h => ⟨?_, ?_⟩⟩
  · simp only [Seal.step, fc, fk, bind, Except.bind]
    cases v <;> simp [h]
  · simp only [Seal.step, fc, fk, bind, Except.bind]
    cases v with
    | tensor d xs =>
      simp only
      cases L.tryEncode xs with
      | error e => exact ⟨e, rfl⟩
      | ok p => exact ⟨.attribute, by simp [Seal.tryEncrypt, h, ret]⟩
    | mat d rows => exact ⟨_, rfl⟩
    | plain p cx => exact ⟨_, rfl⟩
    | cipher x cx => exact ⟨_, rfl⟩
    | key cx => exact ⟨_, rfl⟩
    | encoder d => exact ⟨_, rfl⟩
  · simp only [Seal.step, fc, fk, bind, Except.bind]
    cases v with
    | cipher x cx => exact ⟨.attribute, by simp [Seal.rotateColumnsV, h]⟩
    | tensor d xs => exact ⟨_, rfl⟩
    | mat d rows => exact ⟨_, rfl⟩
    | plain p cx => exact ⟨_, rfl⟩
    | key cx => exact ⟨_, rfl⟩
    | encoder d => exact ⟨_, rfl⟩

/-- operands and programs meeting the hypotheses -/
example : tyRun [.key .pub 4096, .key .galois 4096, .key .relin 4096, .tensor "i64" 4096, .encoder 4096]
    [.encode 3 4, .encrypt 5 0 1, .mul 6 6 2, .relinearize 7 2, .rotate 8 1 3] =
    .ok [.key .pub 4096, .key .galois 4096, .key .relin 4096, .tensor "i64" 4096, .encoder 4096,
      .plain "i64" 4096, .cipher "i64" 4096, .cipher "i64" 4096, .cipher "i64" 4096, .cipher "i64" 4096] := by rfl
example : (⟨0, .pub⟩ : Ctx).kind ≠ .secret := by decide

end Verif.Bfv
