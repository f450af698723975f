import Verif.Phe.Props
import Verif.Tensor.Elementwise
import Mathlib.Tactic.Tauto
import Mathlib.Data.List.Forall2

/-!
# C94: typed PHE programs

Type rules and dispatch of /repo/mplang/dialects/phe.py, and the handlers of /repo/mplang/backends/phe_impl.py with several keys.
LightPHE is one `PheLib` per key (contract `PheLib.Ok`, C61). Run-time values are scalars; tensors of ciphertexts never reach the
handlers in a usable form (`tensor_encode_violated`, C61), so tensors appear in the type rules only.
-/

namespace Verif.Phe.Typed

/-! ### Type rules -/

/-- Element types: plain scalars, encoded integers, ciphertexts, and the non-scalar types keys, encoder, anything else.
/repo/mplang/dialects/phe.py:85-150 -/
inductive Elem
  | raw (name : String)
  | pt (bits : Nat)
  | ct (scheme : String)
  | key (scheme : String) (pub : Bool)
  | encoder
  | other (name : String)
  deriving DecidableEq, Repr

/-- `isinstance(t, ScalarType)`: both `PlaintextType` and `CiphertextType` are subclasses.
/repo/mplang/dialects/phe.py:103, 128 -/
def Elem.scalar : Elem → Bool
  | .raw _ => true
  | .pt _ => true
  | .ct _ => true
  | _ => false

/-- Types of operands. /repo/mplang/edsl/typing.py:380-404 -/
inductive Ty
  | plain (e : Elem)
  | tensor (e : Elem) (shape : List Int)
  deriving DecidableEq, Repr

/-- `TypeError` and `ValueError`. -/
inductive TErr
  | type
  | value
  deriving DecidableEq, Repr

/-- `_encode_ae`. /repo/mplang/dialects/phe.py:211-231 -/
def encodeRule : Elem → Elem → Except TErr Elem
  | v, .encoder => if v.scalar then .ok (.pt 64) else .error .type
  | _, _ => .error .type

/-- `_decode_ae`: the declared type is always f64. /repo/mplang/dialects/phe.py:234-255 -/
def decodeRule : Elem → Elem → Except TErr Elem
  | .pt _, .encoder => .ok (.raw "f64")
  | _, _ => .error .type

/-- `_encrypt_ae`. /repo/mplang/dialects/phe.py:266-285 -/
def encryptRule : Elem → Elem → Except TErr Elem
  | .pt _, .key s true => .ok (.ct s)
  | _, _ => .error .type

/-- `_decrypt_ae`: the scheme of the key is not compared with that of the ciphertext. /repo/mplang/dialects/phe.py:288-308 -/
def decryptRule : Elem → Elem → Except TErr Elem
  | .ct _, .key _ false => .ok (.pt 64)
  | _, _ => .error .type

/-- `_add_cc_ae`. /repo/mplang/dialects/phe.py:320-330 -/
def addCCRule : Elem → Elem → Except TErr Elem
  | .ct s, .ct s' => if s = s' then .ok (.ct s) else .error .type
  | _, _ => .error .type

/-- `_add_cp_ae` and `_mul_cp_ae`. /repo/mplang/dialects/phe.py:333-362 -/
def cpRule : Elem → Elem → Except TErr Elem
  | .ct s, .pt _ => .ok (.ct s)
  | _, _ => .error .type

/-- Element type and shape of an operand inside `elementwise`. /repo/mplang/dialects/tensor.py:343-381 -/
def Ty.elem : Ty → Elem
  | .plain e => e
  | .tensor e _ => e

/-- The declared shape, if a tensor. -/
def Ty.shape? : Ty → Option (List Int)
  | .plain _ => none
  | .tensor _ s => some s

/-- `tensor.elementwise` of a scalar primitive. /repo/mplang/dialects/tensor.py:385-478 -/
def lift (rule : Elem → Elem → Except TErr Elem) (a b : Ty) : Except TErr Ty :=
  match Tensor.elementwiseAe [a.shape?, b.shape?] with
  | .error _ => .error .value
  | .ok sh =>
    match rule a.elem b.elem with
    | .error e => .error e
    | .ok e => .ok (.tensor e sh)

/-- The primitive itself: a tensor operand is not of the expected class. -/
def direct (rule : Elem → Elem → Except TErr Elem) : Ty → Ty → Except TErr Ty
  | .plain a, .plain b =>
    match rule a b with
    | .error e => .error e
    | .ok e => .ok (.plain e)
  | _, _ => .error .type

/-- `encode`, `decode`, `encrypt`, `decrypt`: lifted when the first operand is a tensor.
/repo/mplang/dialects/phe.py:490-573 -/
def unary (rule : Elem → Elem → Except TErr Elem) (a b : Ty) : Except TErr Ty :=
  match a with
  | .tensor _ _ => lift rule a b
  | .plain _ => direct rule a b

/-- `_inspect_operand`: is it encrypted? /repo/mplang/dialects/phe.py:450-467 -/
def inspect (t : Ty) : Except TErr Bool :=
  match t.elem with
  | .ct _ => .ok true
  | e => if e.scalar then .ok false else .error .type

/-- `_apply_binary`. /repo/mplang/dialects/phe.py:473-477 -/
def applyBinary (rule : Elem → Elem → Except TErr Elem) (a b : Ty) : Except TErr Ty :=
  if a.shape?.isSome || b.shape?.isSome then lift rule a b else direct rule a b

/-- `add`. /repo/mplang/dialects/phe.py:617-647 -/
def addTy (a b : Ty) : Except TErr Ty := do
  let x ← inspect a
  let y ← inspect b
  if !(x || y) then .error .type
  else if x && y then applyBinary addCCRule a b
  else if x then applyBinary cpRule a b
  else applyBinary cpRule b a

/-- `mul_plain`. /repo/mplang/dialects/phe.py:650-695 -/
def mulTy (a b : Ty) : Except TErr Ty := do
  let x ← inspect a
  let y ← inspect b
  if x && !y then applyBinary cpRule a b
  else if y && !x then applyBinary cpRule b a
  else .error .type

/-! ### Specification of the types of arithmetic -/

/-- The layout of a result: a scalar for two scalars; otherwise a tensor of the one shape that all non-scalar operands have. -/
def Layout (a b t : Ty) : Prop :=
  match a.shape?, b.shape? with
  | none, none => t.shape? = none
  | x, y => ∃ sh, t.shape? = some sh ∧ (∀ s, (x = some s ∨ y = some s) → s ≠ [] → s = sh) ∧ (sh ≠ [] → x = some sh ∨ y = some sh)

/-- An encoded integer. -/
def Encoded (e : Elem) : Prop := ∃ n, e = .pt n

theorem layout_symm {a b t : Ty} : Layout a b t ↔ Layout b a t := by
  unfold Layout
  cases a.shape? <;> cases b.shape? <;> simp only [or_comm]

theorem lift_iff (rule : Elem → Elem → Except TErr Elem) (a b t : Ty) :
    lift rule a b = .ok t ↔ rule a.elem b.elem = .ok t.elem ∧ ∃ sh, t.shape? = some sh ∧
      (∀ s, (a.shape? = some s ∨ b.shape? = some s) → s ≠ [] → s = sh) ∧ (sh ≠ [] → a.shape? = some sh ∨ b.shape? = some sh) := by
  have step : ∀ sh, Tensor.elementwiseAe [a.shape?, b.shape?] = .ok sh ↔
      (∀ s, (a.shape? = some s ∨ b.shape? = some s) → s ≠ [] → s = sh) ∧ (sh ≠ [] → a.shape? = some sh ∨ b.shape? = some sh) := by
    intro sh
    rw [Tensor.elementwise_rule_accepts_iff [a.shape?, b.shape?] sh]
    simp only [List.mem_cons, List.not_mem_nil, or_false]
    constructor
    · rintro ⟨p, q⟩
      exact ⟨fun s hs hn => p s (hs.imp Eq.symm Eq.symm) hn, fun hn => (q hn).imp Eq.symm Eq.symm⟩
    · rintro ⟨p, q⟩
      exact ⟨fun s hs hn => p s (hs.imp Eq.symm Eq.symm) hn, fun hn => (q hn).imp Eq.symm Eq.symm⟩
  simp only [← step]
  unfold lift
  cases he : Tensor.elementwiseAe [a.shape?, b.shape?] with
  | error e' => simp
  | ok sh =>
    cases hr : rule a.elem b.elem with
    | error e => simp
    | ok e =>
      cases t with
      | plain f => simp [Ty.shape?]
      | tensor f s' =>
        simp only [Except.ok.injEq, Ty.tensor.injEq, Ty.elem, Ty.shape?, Option.some.injEq]
        constructor
        · rintro ⟨rfl, rfl⟩; exact ⟨rfl, sh, rfl, rfl⟩
        · rintro ⟨rfl, sh', rfl, e2⟩; exact ⟨rfl, e2⟩

theorem applyBinary_iff (rule : Elem → Elem → Except TErr Elem) (a b t : Ty) :
    applyBinary rule a b = .ok t ↔ rule a.elem b.elem = .ok t.elem ∧ Layout a b t := by
  unfold applyBinary
  cases a with
  | plain x =>
    cases b with
    | plain y =>
      simp only [Ty.shape?, Option.isSome_none, Bool.or_self, Bool.false_eq_true, if_false, direct, Ty.elem, Layout]
      cases h : rule x y with
      | error e => simp
      | ok e => cases t with
        | plain f => simp
        | tensor f s => simp
    | tensor y s =>
      rw [if_pos (by simp [Ty.shape?]), lift_iff]
      simp only [Layout, Ty.shape?]
  | tensor x s =>
    rw [if_pos (by simp [Ty.shape?]), lift_iff]
    simp only [Layout, Ty.shape?]

theorem inspect_true {t : Ty} : inspect t = .ok true ↔ ∃ s, t.elem = .ct s := by
  unfold inspect
  cases t.elem <;> simp [Elem.scalar]

theorem inspect_false {t : Ty} : inspect t = .ok false ↔ t.elem.scalar = true ∧ ∀ s, t.elem ≠ .ct s := by
  unfold inspect
  cases t.elem <;> simp [Elem.scalar]

theorem addCC_ok {a b e : Elem} : addCCRule a b = .ok e ↔ ∃ s, a = .ct s ∧ b = .ct s ∧ e = .ct s := by
  cases a <;> cases b <;> simp [addCCRule]
  rename_i s s'
  by_cases h : s = s'
  · subst h; simp [eq_comm]
  · simp only [if_neg h, reduceCtorEq, false_iff]
    exact fun e => absurd e.1.symm h

theorem cp_ok {a b e : Elem} : cpRule a b = .ok e ↔ ∃ s, a = .ct s ∧ Encoded b ∧ e = .ct s := by
  cases a <;> cases b <;> simp [cpRule, Encoded, eq_comm]

/-- **C94** `add` is accepted exactly for two ciphertexts of one scheme, or a ciphertext and an encoded integer in either order,
of compatible shapes; the sum is a ciphertext of that scheme. -/
theorem add_type_iff (a b t : Ty) :
    addTy a b = .ok t ↔ Layout a b t ∧ ∃ s, t.elem = .ct s ∧
      ((a.elem = .ct s ∧ b.elem = .ct s) ∨ (a.elem = .ct s ∧ Encoded b.elem) ∨ (Encoded a.elem ∧ b.elem = .ct s)) := by
  unfold addTy
  cases ha : a.elem <;> cases hb : b.elem <;>
    simp [inspect, ha, hb, Elem.scalar, bind, Except.bind, Encoded, applyBinary_iff, cpRule, addCCRule, layout_symm (a := b) (b := a)]
  all_goals first
    | (constructor
       · rintro ⟨h1, h2⟩; exact ⟨h2, h1.symm⟩
       · rintro ⟨h2, h1⟩; exact ⟨h1.symm, h2⟩)
    | skip
  rename_i s s'
  by_cases h : s = s'
  · subst h
    simp only [if_true, Except.ok.injEq, and_true]
    constructor
    · rintro ⟨h1, h2⟩; exact ⟨h2, h1.symm⟩
    · rintro ⟨h2, h1⟩; exact ⟨h1.symm, h2⟩
  · simp [h]

/-- **C94** `mul_plain` is accepted exactly for a ciphertext and an encoded integer, in either order, of compatible shapes. -/
theorem mul_type_iff (a b t : Ty) :
    mulTy a b = .ok t ↔ Layout a b t ∧ ∃ s, t.elem = .ct s ∧
      ((a.elem = .ct s ∧ Encoded b.elem) ∨ (Encoded a.elem ∧ b.elem = .ct s)) := by
  unfold mulTy
  cases ha : a.elem <;> cases hb : b.elem <;>
    simp [inspect, ha, hb, Elem.scalar, bind, Except.bind, Encoded, applyBinary_iff, cpRule, layout_symm (a := b) (b := a)]
  all_goals
    constructor
    · rintro ⟨h1, h2⟩; exact ⟨h2, h1.symm⟩
    · rintro ⟨h2, h1⟩; exact ⟨h1.symm, h2⟩

/-- **C94** The order of the operands does not matter for the types. -/
theorem arith_type_comm (a b : Ty) (t : Ty) : (addTy a b = .ok t ↔ addTy b a = .ok t) ∧ (mulTy a b = .ok t ↔ mulTy b a = .ok t) := by
  constructor
  · rw [add_type_iff, add_type_iff, layout_symm]
    refine and_congr_right fun _ => exists_congr fun s => and_congr_right fun _ => ?_
    tauto
  · rw [mul_type_iff, mul_type_iff, layout_symm]
    refine and_congr_right fun _ => exists_congr fun s => and_congr_right fun _ => ?_
    tauto

example : addTy (.tensor (.ct "paillier") [3]) (.plain (.pt 64)) = .ok (.tensor (.ct "paillier") [3]) ∧
    addTy (.plain (.raw "i64")) (.plain (.ct "paillier")) = .error .type ∧
    mulTy (.tensor (.pt 64) []) (.plain (.ct "elgamal")) = .ok (.tensor (.ct "elgamal") []) ∧
    mulTy (.plain (.ct "paillier")) (.plain (.ct "paillier")) = .error .type := by decide

/-- **C94** (violated) Encoding a ciphertext, or an encoded integer again, is accepted (both types are scalar types). -/
theorem encode_ct_accepted_violated (s : String) (n : Nat) :
    unary encodeRule (.plain (.ct s)) (.plain .encoder) = .ok (.plain (.pt 64)) ∧
    unary encodeRule (.plain (.pt n)) (.plain .encoder) = .ok (.plain (.pt 64)) := ⟨rfl, rfl⟩

/-- **C94** (violated) A ciphertext of one scheme may be decrypted with a key of another. -/
theorem decrypt_scheme_violated (s s' : String) : unary decryptRule (.plain (.ct s)) (.plain (.key s' false)) = .ok (.plain (.pt 64)) := rfl

end Verif.Phe.Typed
