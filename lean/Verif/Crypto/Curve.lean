import Mathlib.Algebra.Group.Basic
import Mathlib.Algebra.Module.NatInt
import Mathlib.Data.List.Forall2
/-!
# Curve programs: `ec_generator`, `ec_mul`, `ec_add`, `ec_sub`, `ec_point_to_bytes`, `ec_bytes_to_point`, scalars and `select`

Points are kept as byte strings and parsed when used (backends/crypto_impl.py:83-117); `None` stands for the identity.  What
coincurve computes is the structure `PointLib` with the contract `PointLib.Ok`.
-/
namespace Verif.Crypto.Curve

/-- Bytes. -/
abbrev Bytes := List UInt8

/-- Python exceptions of the handlers: a wrong kind of value, bytes coincurve does not accept, a sum at infinity. -/
inductive Err
  | type
  | badPoint
  | infinity
  deriving DecidableEq, Repr

/-- What coincurve offers on a curve group `A` of order `N`: `PublicKey(data)`, `format(compressed=…)`; `multiply` and `combine`
are the group operations (`multiply` for scalars in `1..N-1`). -/
structure PointLib (A : Type) where
  N : Nat
  G : A
  /-- `coincurve.PublicKey(data)`; `none`: raises -/
  parse : Bytes → Option A
  /-- `pk.format(compressed)` -/
  fmt : Bool → A → Bytes

/-- 65 zero bytes: what the identity is written as (crypto_impl.py:245-248) -/
def zeros65 : Bytes := List.replicate 65 0

/-- Contract of the library. -/
structure PointLib.Ok {A : Type} [AddCommGroup A] (L : PointLib A) : Prop where
  pos : 1 < L.N
  /-- `N` is the order of every point -/
  order : ∀ a : A, L.N • a = 0
  /-- no smaller multiple of a point is the identity -/
  free : ∀ (a : A) (s : Nat), a ≠ 0 → 0 < s → s < L.N → s • a ≠ 0
  gen : L.G ≠ 0
  /-- a formatted point parses back -/
  parse_fmt : ∀ c a, a ≠ 0 → L.parse (L.fmt c a) = some a
  /-- only points other than the identity have an encoding -/
  parse_ne : ∀ b a, L.parse b = some a → a ≠ 0
  parse_zeros : L.parse (List.replicate 65 0) = none
  /-- SEC1 uncompressed points have 65 bytes -/
  fmt_len : ∀ a, a ≠ 0 → (L.fmt false a).length = 65

/-- Runtime values of a curve program: a point (`None` or an `ECPointValue`), a Python int, a byte tensor. -/
inductive Val
  | point (p : Option Bytes)
  | scalar (s : Int)
  | bytes (b : Bytes)
  deriving DecidableEq

/-- Operations; operands are positions of earlier values.  The curve name is an attribute no handler reads. -/
inductive Instr
  | gen (curve : String)
  | mul (p s : Nat)
  | add (p q : Nat)
  | sub (p q : Nat)
  | toBytes (p : Nat)
  | ofBytes (b : Nat)
  | randomScalar (entropy : Nat) (curve : String)
  | fromInt (v : Int) (curve : String)
  | select (c t f : Nat)
  /-- sending the value to another party: JSON serialisation keeps the bytes of a point and `None` (C02) -/
  | wire (x : Nat)

variable {A : Type} [AddCommGroup A] [DecidableEq A]

/-- `point.coincurve_key` (crypto_impl.py:109-112) -/
def PointLib.key (L : PointLib A) (b : Bytes) : Except Err A :=
  match L.parse b with
  | some a => .ok a
  | none => .error .badPoint

/-- `ECPointValue.from_coincurve`: stored compressed (crypto_impl.py:94-95, 114-117) -/
def PointLib.wrap (L : PointLib A) (a : A) : Option Bytes := some (L.fmt true a)

/-- `a.combine([b])`: raises when the sum is the point at infinity. -/
def PointLib.combine (_L : PointLib A) (a b : A) : Except Err A :=
  if a + b = 0 then .error .infinity else .ok (a + b)

/-- `mul_impl` (crypto_impl.py:134-170) -/
def PointLib.mul (L : PointLib A) (p : Option Bytes) (s : Int) : Except Err (Option Bytes) :=
  let s' := s % (L.N : Int)
  if s' = 0 then .ok none
  else match p with
    | none => .ok none
    | some b => do
      let a ← L.key b
      pure (L.wrap (s' • a))

/-- `add_impl` (crypto_impl.py:173-185) -/
def PointLib.add (L : PointLib A) : Option Bytes → Option Bytes → Except Err (Option Bytes)
  | none, q => .ok q
  | some b, none => .ok (some b)
  | some b, some b' => do
    let a ← L.key b
    let a' ← L.key b'
    let r ← L.combine a a'
    pure (L.wrap r)

/-- `sub_impl` (crypto_impl.py:188-209): the second operand is multiplied by `N - 1` -/
def PointLib.sub (L : PointLib A) : Option Bytes → Option Bytes → Except Err (Option Bytes)
  | p, none => .ok p
  | none, some b' => do
    let a' ← L.key b'
    pure (L.wrap ((L.N - 1) • a'))
  | some b, some b' => do
    let a' ← L.key b'
    let a ← L.key b
    let r ← L.combine a ((L.N - 1) • a')
    pure (L.wrap r)

/-- `point_to_bytes_impl` (crypto_impl.py:241-253) -/
def PointLib.toBytes (L : PointLib A) : Option Bytes → Except Err Bytes
  | none => .ok zeros65
  | some b => do
    let a ← L.key b
    pure (L.fmt false a)

/-- read an operand -/
def valAt (env : List Val) (i : Nat) : Except Err Val :=
  match env[i]? with
  | some v => .ok v
  | none => .error .type

/-- an operand used as a point (a value of another class has no `coincurve_key`) -/
def pointAt (env : List Val) (i : Nat) : Except Err (Option Bytes) :=
  match env[i]? with
  | some (.point p) => .ok p
  | _ => .error .type

/-- an operand used as a scalar (crypto_impl.py:145-157) -/
def scalarAt (env : List Val) (i : Nat) : Except Err Int :=
  match env[i]? with
  | some (.scalar s) => .ok s
  | _ => .error .type

/-- an operand used as bytes (crypto_impl.py:260-268) -/
def bytesAt (env : List Val) (i : Nat) : Except Err Bytes :=
  match env[i]? with
  | some (.bytes b) => .ok b
  | _ => .error .type

/-- One operation. `generator_impl` (crypto_impl.py:125-131), `random_scalar_impl` (212-214), `scalar_from_int_impl` (217-238),
`bytes_to_point_impl` (256-270), `select_impl` (441-459). -/
def PointLib.step (L : PointLib A) (env : List Val) : Instr → Except Err Val
  | .gen _ => .ok (.point (L.wrap L.G))
  | .mul p s => do
    let p ← pointAt env p
    let s ← scalarAt env s
    let r ← L.mul p s
    pure (.point r)
  | .add p q => do
    let p ← pointAt env p
    let q ← pointAt env q
    let r ← L.add p q
    pure (.point r)
  | .sub p q => do
    let p ← pointAt env p
    let q ← pointAt env q
    let r ← L.sub p q
    pure (.point r)
  | .toBytes p => do
    let p ← pointAt env p
    let b ← L.toBytes p
    pure (.bytes b)
  | .ofBytes b => do
    let b ← bytesAt env b
    pure (.point (some b))
  | .randomScalar e _ => .ok (.scalar ((e : Int) % (L.N : Int)))
  | .fromInt v _ => .ok (.scalar v)
  | .select c t f => do
    let c ← scalarAt env c
    let t ← valAt env t
    let f ← valAt env f
    pure (if c ≠ 0 then t else f)
  | .wire x => do
    let v ← valAt env x
    pure v

/-- A program appends one value per operation. -/
def PointLib.run (L : PointLib A) : List Val → List Instr → Except Err (List Val)
  | env, [] => .ok env
  | env, i :: is => do
    let v ← L.step env i
    L.run (env ++ [v]) is

/-! ## Declared types -/

/-- Types of a curve program (dialects/crypto.py:33-87): `Point[curve]`, `Scalar[curve]`, a `u8` vector. -/
inductive Ty
  | point (curve : String)
  | scalar (curve : String)
  | u8 (n : Nat)
  deriving DecidableEq

/-- the attribute `.curve` -/
def Ty.curve : Ty → Option String
  | .point c => some c
  | .scalar c => some c
  | .u8 _ => none

/-- `_mul_ae`, `_add_ae`, `_sub_ae`: `PointType(first.curve)` (dialects/crypto.py:220-232) -/
def pairTy : Option Ty → Option Ty → Option Ty
  | some a, some _ => a.curve.map .point
  | _, _ => none

/-- Type rules (dialects/crypto.py:215-256, 349-353, 664-667); `select` has the type of its second operand; no rule inspects the class of its
operands. -/
def tyStep (Γ : List Ty) : Instr → Option Ty
  | .gen c => some (.point c)
  | .mul p s => pairTy Γ[p]? Γ[s]?
  | .add p q => pairTy Γ[p]? Γ[q]?
  | .sub p q => pairTy Γ[p]? Γ[q]?
  | .toBytes p => Γ[p]?.map fun _ => .u8 65
  | .ofBytes b => Γ[b]?.map fun _ => .point "secp256k1"
  | .randomScalar _ c => some (.scalar c)
  | .fromInt _ c => some (.scalar c)
  | .select c t f =>
    match Γ[c]?, Γ[t]?, Γ[f]? with
    | some _, some a, some _ => some a
    | _, _, _ => none
  | .wire x => Γ[x]?

/-- Types of a whole program. -/
def tyRun : List Ty → List Instr → Option (List Ty)
  | Γ, [] => some Γ
  | Γ, i :: is =>
    match tyStep Γ i with
    | some t => tyRun (Γ ++ [t]) is
    | none => none

/-! ## Specification: arithmetic in the group -/

/-- What a value means: a group element, an integer, or the encoding of a group element. -/
inductive Mean (A : Type)
  | elem (a : A)
  | int (s : Int)
  | enc (a : A)

/-- The same program in the group. -/
def PointLib.spec (L : PointLib A) (m : List (Mean A)) : Instr → Option (Mean A)
  | .gen _ => some (.elem L.G)
  | .mul p s =>
    match m[p]?, m[s]? with
    | some (.elem a), some (.int k) => some (.elem (k • a))
    | _, _ => none
  | .add p q =>
    match m[p]?, m[q]? with
    | some (.elem a), some (.elem b) => some (.elem (a + b))
    | _, _ => none
  | .sub p q =>
    match m[p]?, m[q]? with
    | some (.elem a), some (.elem b) => some (.elem (a - b))
    | _, _ => none
  | .toBytes p =>
    match m[p]? with
    | some (.elem a) => some (.enc a)
    | _ => none
  | .ofBytes b =>
    match m[b]? with
    | some (.enc a) => some (.elem a)
    | _ => none
  | .randomScalar e _ => some (.int ((e : Int) % (L.N : Int)))
  | .fromInt v _ => some (.int v)
  | .select c t f =>
    match m[c]?, m[t]?, m[f]? with
    | some (.int k), some a, some b => some (if k ≠ 0 then a else b)
    | _, _, _ => none
  | .wire x => m[x]?

/-- The program in the group; `none`: the program is not well formed. -/
def PointLib.specRun (L : PointLib A) : List (Mean A) → List Instr → Option (List (Mean A))
  | m, [] => some m
  | m, i :: is =>
    match L.spec m i with
    | some v => L.specRun (m ++ [v]) is
    | none => none

/-- The bytes of a stored point stand for `a`: they parse to `a`, or they are the 65 zero bytes of the identity. -/
def PointLib.Stands (L : PointLib A) (a : A) : Option Bytes → Prop
  | none => a = 0
  | some b => L.parse b = some a ∨ (b = List.replicate 65 0 ∧ a = 0)

/-- A value stands for a meaning. -/
def PointLib.Rep (L : PointLib A) : Mean A → Val → Prop
  | .elem a, .point p => L.Stands a p
  | .int k, .scalar s => s = k
  | .enc a, .bytes b => (a = 0 ∧ b = List.replicate 65 0) ∨ (a ≠ 0 ∧ b = L.fmt false a)
  | _, _ => False

end Verif.Crypto.Curve
