import Mathlib.Data.Rat.Defs
import Mathlib.Algebra.Order.Field.Rat
import Mathlib.Data.Nat.Log
/-!
# Partially homomorphic encryption (backends/phe_impl.py, dialects/phe.py): model for C61

LightPHE (key generation, encryption, ciphertext arithmetic) is `PheLib` with its contract in `PheLib.Ok`.  Floats are exact:
a finite double is a rational `m * 2 ^ e`, and the only rounding python performs here is the conversion of an int to a float
(`roundInt`).  Simplification: results of scaling by a power of two are not checked for underflow to subnormals (fixed-point
scales are at most a few hundred bits).
-/
namespace Verif.Phe

/-- LightPHE for one key pair; the first argument of `enc` is the random draw -/
structure PheLib (C : Type) where
  n : Nat
  enc : Nat → Int → C
  dec : C → Int
  add : C → C → C
  mul : C → Int → C

/-- What an additively homomorphic scheme (Paillier) promises: everything is modulo `n`, and decryption returns the
representative in `[0, n)`. -/
structure PheLib.Ok {C : Type} (L : PheLib C) : Prop where
  pos : 0 < L.n
  dec_enc : ∀ r v, L.dec (L.enc r v) = v % L.n
  dec_add : ∀ a b, L.dec (L.add a b) = (L.dec a + L.dec b) % L.n
  dec_mul : ∀ a k, L.dec (L.mul a k) = (L.dec a * k) % L.n

/-- exceptions -/
inductive Err where
  | type | overflow | attribute
  deriving DecidableEq, Repr

/-- `float(n)` on the absolute value: round to 53 significant bits, ties to even -/
def roundNat (n : Nat) : Nat :=
  if n < 2 ^ 53 then n
  else
    let s := Nat.log 2 n - 52
    let q := n / 2 ^ s
    let r := n % 2 ^ s
    let up := 2 ^ s < 2 * r ∨ (2 * r = 2 ^ s ∧ q % 2 = 1)
    (if up then q + 1 else q) * 2 ^ s

/-- first power of two above the double range -/
@[irreducible] def floatLimit : Nat := 2 ^ 1024

/-- `float(n)` of a python int; `OverflowError: int too large to convert to float` from `2 ^ 1024` on (after rounding) -/
def floatOfInt (n : Int) : Except Err Int :=
  let m := roundNat n.natAbs
  if m < floatLimit then .ok (if n < 0 then -(m : Int) else m) else .error .overflow

/-- `int(x)`: truncation towards zero -/
def truncRat (x : ℚ) : Int := Int.tdiv x.num x.den

/-- Runtime values reaching the handlers: python ints and floats (exact), encoders (their number of fraction bits), key
contexts, ciphertexts, and tensor values (which define no arithmetic, backends/tensor_impl.py:51-116). -/
inductive Val (C : Type) where
  | int (v : Int)
  | flt (x : ℚ)
  | encoder (fxp : Nat)
  | ctx
  | ct (c : C)
  | tensor

/-- `create_encoder_impl` (phe_impl.py:86-92): only `fxp_bits` is read; `dtype` and `max_value` are not -/
def createEncoder {C : Type} (_dtype : String) (fxp : Nat) (_maxValue : Option Int) : Val C := .encoder fxp

/-- `int(value * encoder.scale)` (phe_impl.py:95-99), `scale = 2.0**fxp_bits`.  Scaling a double by a power of two is exact;
an int is first converted to a float.  Overflow to infinity makes `int()` raise `OverflowError`. -/
def encode {C : Type} : Val C → Val C → Except Err (Val C)
  | .int v, .encoder k =>
    match floatOfInt v with
    | .ok w => if w.natAbs * 2 ^ k < floatLimit then .ok (.int (w * 2 ^ k)) else .error .overflow
    | .error e => .error e
  | .flt x, .encoder k => if |x| * 2 ^ k < (floatLimit : ℚ) then .ok (.int (truncRat (x * 2 ^ k))) else .error .overflow
  | _, .encoder _ => .error .type
  | _, _ => .error .attribute

/-- `float(value) / encoder.scale` (phe_impl.py:102-106) -/
def decode {C : Type} : Val C → Val C → Except Err (Val C)
  | .int v, .encoder k =>
    match floatOfInt v with
    | .ok w => .ok (.flt ((w : ℚ) / 2 ^ k))
    | .error e => .error e
  | .flt x, .encoder k => .ok (.flt (x / 2 ^ k))
  | _, .encoder _ => .error .type
  | _, _ => .error .attribute

/-- `encrypt_impl` (phe_impl.py:109-114); LightPHE refuses anything but numbers.  Simplification: encrypting a float (LightPHE
fractionises it) is an error here; the dialect only encrypts encoded ints. -/
def encrypt {C : Type} (L : PheLib C) (r : Nat) : Val C → Except Err (Val C)
  | .int v => .ok (.ct (L.enc r v))
  | _ => .error .type

/-- `decrypt_impl` (phe_impl.py:117-121) -/
def decrypt {C : Type} (L : PheLib C) : Val C → Except Err (Val C)
  | .ct c => .ok (.int (L.dec c))
  | _ => .error .attribute

/-- `add_cc_impl`, `add_cp_impl`: `WrappedCiphertext.__add__` (phe_impl.py:57-68, 124-139) -/
def add {C : Type} (L : PheLib C) (r : Nat) : Val C → Val C → Except Err (Val C)
  | .ct a, .ct b => .ok (.ct (L.add a b))
  | .ct a, .int v => .ok (.ct (L.add a (L.enc r v)))
  | _, _ => .error .type

/-- `mul_cp_impl`: `WrappedCiphertext.__mul__` (phe_impl.py:70-75, 142-148) -/
def mul {C : Type} (L : PheLib C) : Val C → Val C → Except Err (Val C)
  | .ct a, .int v => .ok (.ct (L.mul a v))
  | _, _ => .error .type

/-- A program over ciphertexts: encrypt an encoded int, add two ciphertexts, add or multiply by an encoded int. -/
inductive Expr where
  | enc (r : Nat) (v : Int)
  | addC (a b : Expr)
  | addP (r : Nat) (a : Expr) (v : Int)
  | mulP (a : Expr) (v : Int)

/-- what the program computes on plain ints -/
def Expr.value : Expr → Int
  | .enc _ v => v
  | .addC a b => a.value + b.value
  | .addP _ a v => a.value + v
  | .mulP a v => a.value * v

/-- the program executed by the handlers -/
def Expr.run {C : Type} (L : PheLib C) : Expr → Except Err (Val C)
  | .enc r v => encrypt L r (.int v)
  | .addC a b => do add L 0 (← a.run L) (← b.run L)
  | .addP r a v => do add L r (← a.run L) (.int v)
  | .mulP a v => do mul L (← a.run L) (.int v)

/-- `decrypt` then `decode` (dialects/phe.py:598-619, `decrypt_auto`) -/
def decryptAuto {C : Type} (L : PheLib C) (c enc : Val C) : Except Err (Val C) := do decode (← decrypt L c) enc

/-- `encode` then `encrypt` (dialects/phe.py:575-595, `encrypt_auto`) -/
def encryptAuto {C : Type} (L : PheLib C) (r : Nat) (v enc : Val C) : Except Err (Val C) := do encrypt L r (← encode v enc)

end Verif.Phe
