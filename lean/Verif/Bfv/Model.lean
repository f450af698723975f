import Mathlib.Data.ZMod.ValMinAbs

/-!
# The BFV dialect: homomorphic integer programs

Model of /repo/mplang/dialects/bfv.py (type rules) and /repo/mplang/backends/bfv_impl.py (execution). A ciphertext
packs `2 * h` integers modulo `t`, as two rows of `h` slots.

SEAL (through TenSEAL) is the structure `Seal`: what it computes on valid ciphertexts is assumed by `Seal.Ok`, and only for
ciphertexts whose noise is within the budget (`fine`). What is modelled is everything around it: which operation is called
on what, the shortcuts for zero, the contexts attached to values, what the type rules accept and what an operation refuses.
All keys of one program have the same parameters.
-/

namespace Verif.Bfv

/-- The slots of a plaintext: row, then position in the row. Only rows 0, 1 and positions below `h` mean anything. -/
abbrev Slots (t : Nat) := Nat → Nat → ZMod t

/-- Equal in all slots that exist. -/
def Same {t : Nat} (h : Nat) (a b : Slots t) : Prop := ∀ r < 2, ∀ i < h, a r i = b r i

/-- Exceptions of the backend, by Python class. -/
inductive Err
  /-- `TypeError`, also raised by the type rules -/
  | type
  /-- `ValueError`: an argument SEAL finds invalid (pybind11 maps `std::invalid_argument` to it) -/
  | value
  /-- `RuntimeError`: SEAL refuses to return a transparent ciphertext (`std::logic_error`) -/
  | transparent
  /-- `AttributeError`: the object has no such member -/
  | attribute
  /-- `NotImplementedError` -/
  | notImplemented
  /-- no such value in the program -/
  | unbound
  deriving DecidableEq, Repr

/-- What a context carries. /repo/mplang/backends/bfv_impl.py:60-181 -/
inductive Kind
  | param
  | pub
  | secret
  deriving DecidableEq, Repr

/-- A context: the key pair it belongs to (by number) and what it carries. -/
structure Ctx where
  key : Nat
  kind : Kind
  deriving DecidableEq, Repr

/-- SEAL as the code uses it, for fixed parameters: `2 * h` slots, plaintext modulus `t`. `C` are the ciphertexts that have
polynomials; the empty object `sealapi.Ciphertext()` is not one of them. -/
structure Seal (C : Type) where
  h : Nat
  t : Nat
  /-- `BatchEncoder.encode` on a list of at most `2 * h` numbers -/
  encode : List Int → Slots t
  /-- `Encryptor.encrypt` with a key and randomness -/
  encrypt : Nat → Nat → Slots t → C
  /-- the plaintext a ciphertext decrypts to under a key -/
  decrypt : Nat → C → Slots t
  /-- the key a ciphertext belongs to -/
  keyOf : C → Nat
  /-- number of polynomials -/
  size : C → Nat
  /-- all polynomials but the first are zero -/
  transparent : C → Bool
  /-- the noise is within the budget -/
  fine : C → Prop
  add : C → C → C
  sub : C → C → C
  negate : C → C
  multiply : C → C → C
  addPlain : C → Slots t → C
  subPlain : C → Slots t → C
  mulPlain : C → Slots t → C
  relinearize : Nat → C → C
  rotateRows : Nat → Int → C → C
  rotateColumns : Nat → C → C

/-- The slots of a list of integers: in order, first row first, zeros after the end. -/
def spread (h t : Nat) (xs : List Int) : Slots t := fun r i => ((xs.getD (r * h + i) 0 : Int) : ZMod t)

/-- Rotation of both rows to the left. -/
def turn {t : Nat} (h : Nat) (s : Int) (a : Slots t) : Slots t := fun r i => a r (((i : Int) + s) % (h : Int)).toNat

/-- Exchange of the two rows. -/
def flip {t : Nat} (a : Slots t) : Slots t := fun r i => a (1 - r) i

/-- Numbers that are their own centred remainder. -/
def Fits (t : Nat) (xs : List Int) : Prop := ∀ x ∈ xs, 2 * x.natAbs < t

/-- What SEAL is assumed to do (its documentation; noise permitting). -/
structure Seal.Ok {C : Type} (L : Seal C) : Prop where
  h_pos : 0 < L.h
  t_odd : L.t % 2 = 1
  encode : ∀ xs, xs.length ≤ 2 * L.h → Fits L.t xs → Same L.h (L.encode xs) (spread L.h L.t xs)
  encrypt_key : ∀ k r p, L.keyOf (L.encrypt k r p) = k
  encrypt : ∀ k r p, L.fine (L.encrypt k r p) → Same L.h (L.decrypt k (L.encrypt k r p)) p
  /-- (with overwhelming probability) -/
  encrypt_opaque : ∀ k r p, L.transparent (L.encrypt k r p) = false
  encrypt_size : ∀ k r p, L.size (L.encrypt k r p) = 2
  add_key : ∀ a b, L.keyOf (L.add a b) = L.keyOf a
  add : ∀ a b k, L.keyOf a = k → L.keyOf b = k → L.fine a → L.fine b → L.fine (L.add a b) →
    Same L.h (L.decrypt k (L.add a b)) fun r i => L.decrypt k a r i + L.decrypt k b r i
  sub_key : ∀ a b, L.keyOf (L.sub a b) = L.keyOf a
  sub : ∀ a b k, L.keyOf a = k → L.keyOf b = k → L.fine a → L.fine b → L.fine (L.sub a b) →
    Same L.h (L.decrypt k (L.sub a b)) fun r i => L.decrypt k a r i - L.decrypt k b r i
  /-- the polynomials cancel -/
  sub_self : ∀ a, L.transparent (L.sub a a) = true
  negate_key : ∀ a, L.keyOf (L.negate a) = L.keyOf a
  negate : ∀ a k, L.keyOf a = k → L.fine a → Same L.h (L.decrypt k (L.negate a)) fun r i => - L.decrypt k a r i
  negate_fine : ∀ a, L.fine a → L.fine (L.negate a)
  multiply_key : ∀ a b, L.keyOf (L.multiply a b) = L.keyOf a
  multiply : ∀ a b k, L.keyOf a = k → L.keyOf b = k → L.fine a → L.fine b → L.fine (L.multiply a b) →
    Same L.h (L.decrypt k (L.multiply a b)) fun r i => L.decrypt k a r i * L.decrypt k b r i
  addPlain_key : ∀ a p, L.keyOf (L.addPlain a p) = L.keyOf a
  addPlain : ∀ a p k, L.keyOf a = k → L.fine a → L.fine (L.addPlain a p) →
    Same L.h (L.decrypt k (L.addPlain a p)) fun r i => L.decrypt k a r i + p r i
  subPlain_key : ∀ a p, L.keyOf (L.subPlain a p) = L.keyOf a
  subPlain : ∀ a p k, L.keyOf a = k → L.fine a → L.fine (L.subPlain a p) →
    Same L.h (L.decrypt k (L.subPlain a p)) fun r i => L.decrypt k a r i - p r i
  mulPlain_key : ∀ a p, L.keyOf (L.mulPlain a p) = L.keyOf a
  mulPlain : ∀ a p k, L.keyOf a = k → L.fine a → L.fine (L.mulPlain a p) →
    Same L.h (L.decrypt k (L.mulPlain a p)) fun r i => L.decrypt k a r i * p r i
  /-- a product with a plaintext can only be transparent if it is a product with zero -/
  mulPlain_transparent : ∀ a p k, L.keyOf a = k → L.fine a → L.transparent a = false → L.transparent (L.mulPlain a p) = true →
    Same L.h (fun r i => L.decrypt k a r i * p r i) fun _ _ => 0
  relinearize_key : ∀ k a, L.keyOf (L.relinearize k a) = L.keyOf a
  relinearize : ∀ a k, L.keyOf a = k → L.fine a → L.fine (L.relinearize k a) →
    Same L.h (L.decrypt k (L.relinearize k a)) (L.decrypt k a)
  rotateRows_key : ∀ k s a, L.keyOf (L.rotateRows k s a) = L.keyOf a
  rotateRows : ∀ a k s, L.keyOf a = k → L.fine a → L.fine (L.rotateRows k s a) →
    Same L.h (L.decrypt k (L.rotateRows k s a)) (turn L.h s (L.decrypt k a))
  rotateColumns_key : ∀ k a, L.keyOf (L.rotateColumns k a) = L.keyOf a
  rotateColumns : ∀ a k, L.keyOf a = k → L.fine a → L.fine (L.rotateColumns k a) →
    Same L.h (L.decrypt k (L.rotateColumns k a)) (flip (L.decrypt k a))

variable {C : Type}

/-- Run-time values: `TensorValue` (rank 1 with its dtype, rank 2), `BFVValue` holding a plaintext or a ciphertext (`none` is the
empty ciphertext), a key context, and the encoder, which is a plain dict.
/repo/mplang/backends/bfv_impl.py:60-238, 301-303 -/
inductive Val (t : Nat) (C : Type)
  | tensor (dtype : String) (xs : List Int)
  | mat (dtype : String) (rows : List (List Int))
  | plain (p : Slots t) (ctx : Ctx)
  | cipher (c : Option C) (ctx : Ctx)
  | key (ctx : Ctx)
  | encoder (degree : Int)

/-- Operations, with the positions of their operands among the values made so far. `rnd` is the randomness of the encryption the
operation may perform. `wire` is the move of a value to another process (`serde` round trip).
/repo/mplang/dialects/bfv.py:517-650 -/
inductive Instr
  | relinKeys (sk : Nat)
  | galoisKeys (sk : Nat)
  | createEncoder (degree : Int)
  | encode (x enc : Nat)
  | batchEncode (x enc key : Nat)
  | encrypt (x pk : Nat) (rnd : Nat)
  | decrypt (c sk : Nat)
  | decode (p enc : Nat)
  | add (a b : Nat) (rnd : Nat)
  | sub (a b : Nat)
  | mul (a b : Nat) (rnd : Nat)
  | relinearize (c rk : Nat)
  | rotate (c gk : Nat) (steps : Int)
  | rotateColumns (c gk : Nat)
  | wire (x : Nat)
  deriving DecidableEq, Repr

variable (L : Seal C)

/-- All slots of the encoded polynomial are zero. `Plaintext.is_zero`. -/
def isZero {t : Nat} (h : Nat) (p : Slots t) : Bool := (List.range 2).all fun r => (List.range h).all fun i => decide (p r i = 0)

/-- `BatchEncoder.encode`, which refuses more numbers than slots. -/
def Seal.tryEncode (xs : List Int) : Except Err (Slots L.t) := if xs.length ≤ 2 * L.h then .ok (L.encode xs) else .error .value

/-- An evaluator call whose result must not be transparent. -/
def Seal.checked (c : C) : Except Err C := if L.transparent c then .error .transparent else .ok c

/-- `ctx.encryptor`: a context made from parameters only has none. /repo/mplang/backends/bfv_impl.py:66-77, 123 -/
def Seal.tryEncrypt (ctx : Ctx) (rnd : Nat) (p : Slots L.t) : Except Err C :=
  if ctx.kind = .param then .error .attribute else .ok (L.encrypt ctx.key rnd p)

/-- A ciphertext handed to SEAL must not be the empty object (its parameters are not those of the context). -/
def full : Option C → Except Err C
  | none => .error .value
  | some c => .ok c

/-- The second operand of `add`, `sub`, `mul` as a SEAL plaintext: a raw tensor is encoded now.
/repo/mplang/backends/bfv_impl.py:405-419 -/
def Seal.asPlain : Val L.t C → Option (Except Err (Slots L.t))
  | .tensor _ xs => some (L.tryEncode xs)
  | .mat _ rows => some (L.tryEncode rows.flatten)
  | .plain p _ => some (.ok p)
  | _ => none

/-- Wrap an evaluator result. -/
def ret {t : Nat} (ctx : Ctx) : Except Err C → Except Err (Val t C)
  | .ok c => .ok (.cipher (some c) ctx)
  | .error e => .error e

/-- `ciphertext + plaintext`, in either order: an empty ciphertext counts as zero and the plaintext is encrypted.
/repo/mplang/backends/bfv_impl.py:440-498 -/
def Seal.addPl (c : Option C) (ctx : Ctx) (rnd : Nat) (p : Except Err (Slots L.t)) : Except Err (Val L.t C) := do
  let p ← p
  match c with
  | none => ret ctx (L.tryEncrypt ctx rnd p)
  | some c => ret ctx (L.checked (L.addPlain c p))

/-- `add_impl`. /repo/mplang/backends/bfv_impl.py:420-502 -/
def Seal.addV (rnd : Nat) (a b : Val L.t C) : Except Err (Val L.t C) :=
  match a, b with
  | .cipher x c, .cipher y d =>
    match x, y with
    | none, _ => .ok (.cipher y d)
    | some _, none => .ok (.cipher x c)
    | some x, some y => ret c (L.checked (L.add x y))
  | .cipher x c, v => match L.asPlain v with | some p => L.addPl x c rnd p | none => .error .type
  | v, .cipher y d => match L.asPlain v with | some p => L.addPl y d rnd p | none => .error .type
  | .plain _ _, .plain _ _ => .error .notImplemented
  | _, _ => .error .type

/-- `sub_impl`: no shortcut for empty ciphertexts. `plain - cipher` negates, then adds.
/repo/mplang/backends/bfv_impl.py:505-553 -/
def Seal.subV (a b : Val L.t C) : Except Err (Val L.t C) :=
  match a, b with
  | .cipher x c, .cipher y _ => do
    let x ← full x
    let y ← full y
    ret c (L.checked (L.sub x y))
  | .cipher x c, v =>
    match L.asPlain v with
    | some p => do
      let p ← p
      let x ← full x
      ret c (L.checked (L.subPlain x p))
    | none => .error .type
  | v, .cipher y d =>
    match L.asPlain v with
    | some p => do
      let p ← p
      let y ← full y
      let n ← L.checked (L.negate y)
      ret d (L.checked (L.addPlain n p))
    | none => .error .type
  | .plain _ _, .plain _ _ => .error .notImplemented
  | _, _ => .error .type

/-- `ciphertext * encoded plaintext`: zero gives the empty ciphertext, as does a transparent result.
/repo/mplang/backends/bfv_impl.py:570-600 -/
def Seal.mulPt (c : Option C) (ctx : Ctx) (p : Slots L.t) : Except Err (Val L.t C) :=
  if isZero L.h p then .ok (.cipher none ctx)
  else do
    let c ← full c
    match L.checked (L.mulPlain c p) with
    | .ok r => .ok (.cipher (some r) ctx)
    | .error _ => .ok (.cipher none ctx)

/-- `ciphertext * raw tensor`: zero gives a fresh encryption of zero, as does a transparent result.
/repo/mplang/backends/bfv_impl.py:606-652 -/
def Seal.mulRaw (c : Option C) (ctx : Ctx) (rnd : Nat) (xs : List Int) : Except Err (Val L.t C) :=
  if xs.all fun x => decide (x = 0) then ret ctx (L.tryEncrypt ctx rnd fun _ _ => 0)
  else do
    let p ← L.tryEncode xs
    let c ← full c
    match L.checked (L.mulPlain c p) with
    | .ok r => .ok (.cipher (some r) ctx)
    | .error _ => ret ctx (L.tryEncrypt ctx rnd fun _ _ => 0)

/-- `mul_impl`. /repo/mplang/backends/bfv_impl.py:556-657 -/
def Seal.mulV (rnd : Nat) (a b : Val L.t C) : Except Err (Val L.t C) :=
  match a, b with
  | .cipher x c, .cipher y _ => do
    let x ← full x
    let y ← full y
    ret c (L.checked (L.multiply x y))
  | .cipher x c, .plain p _ => L.mulPt x c p
  | .plain p _, .cipher y d => L.mulPt y d p
  | .cipher x c, .tensor _ xs => L.mulRaw x c rnd xs
  | .tensor _ xs, .cipher y d => L.mulRaw y d rnd xs
  | .cipher x c, .mat _ rows => L.mulRaw x c rnd rows.flatten
  | .mat _ rows, .cipher y d => L.mulRaw y d rnd rows.flatten
  | .plain _ _, .plain _ _ => .error .notImplemented
  | _, _ => .error .type

/-- `relinearize_impl`; the keys serve ciphertexts of three polynomials. /repo/mplang/backends/bfv_impl.py:660-681 -/
def Seal.relinV (c : Option C) (ctx rk : Ctx) : Except Err (Val L.t C) :=
  match c with
  | none => .ok (.cipher none ctx)
  | some c =>
    if L.size c > 2 then
      if rk.kind = .param then .error .attribute
      else if L.size c > 3 then .error .value
      else ret ctx (L.checked (L.relinearize rk.key c))
    else .ok (.cipher (some c) ctx)

/-- `rotate_impl`: nothing to do for 0 steps or an empty ciphertext; SEAL wants two polynomials and fewer steps than a row has
slots. /repo/mplang/backends/bfv_impl.py:671-692 -/
def Seal.rotateV (c : Option C) (ctx gk : Ctx) (steps : Int) : Except Err (Val L.t C) :=
  if steps = 0 then .ok (.cipher c ctx)
  else match c with
    | none => .ok (.cipher none ctx)
    | some c =>
      if gk.kind = .param then .error .attribute
      else if L.size c > 2 ∨ steps.natAbs ≥ L.h then .error .value
      else ret ctx (L.checked (L.rotateRows gk.key steps c))

/-- `rotate_columns_impl`: no shortcut. /repo/mplang/backends/bfv_impl.py:695-705 -/
def Seal.rotateColumnsV (c : Option C) (ctx gk : Ctx) : Except Err (Val L.t C) :=
  if gk.kind = .param then .error .attribute
  else do
    let c ← full c
    if L.size c > 2 then .error .value
    else ret ctx (L.checked (L.rotateColumns gk.key c))

/-- `decode_int64`: all slots, as centred remainders. /repo/mplang/backends/bfv_impl.py:374-383 -/
def centred {t : Nat} (h : Nat) (p : Slots t) : List Int := (List.range (2 * h)).map fun q => (p (q / h) (q % h)).valMinAbs

/-- The rows of a matrix, each encoded. /repo/mplang/backends/bfv_impl.py:316-345 -/
def Seal.encodeRows (ctx : Ctx) : List (List Int) → Except Err (List (Val L.t C))
  | [] => .ok []
  | r :: rest => do
    let p ← L.tryEncode r
    let ps ← Seal.encodeRows ctx rest
    pure (.plain p ctx :: ps)

/-- A value after a `serde` round trip: plaintexts and ciphertexts keep only the parameters of their context, and the empty
ciphertext cannot be loaded. /repo/mplang/backends/bfv_impl.py:80-98, 127-137, 170-181, 195-238 -/
def wired {t : Nat} : Val t C → Except Err (Val t C)
  | .plain p ctx => .ok (.plain p { ctx with kind := .param })
  | .cipher (some c) ctx => .ok (.cipher (some c) { ctx with kind := .param })
  | .cipher none _ => .error .transparent
  | v => .ok v

/-- The value at a position. -/
def fetch {t : Nat} (env : List (Val t C)) (i : Nat) : Except Err (Val t C) :=
  match env[i]? with
  | some v => .ok v
  | none => .error .unbound

/-- One operation: the values it returns. -/
def Seal.step (env : List (Val L.t C)) : Instr → Except Err (List (Val L.t C))
  | .relinKeys sk => do                                     -- 287-291
    match ← fetch env sk with
    | .key ctx => .ok [.key ctx]
    | _ => .error .type
  | .galoisKeys sk => do                                    -- 294-298
    match ← fetch env sk with
    | .key ctx => .ok [.key ctx]
    | _ => .error .type
  | .createEncoder d => .ok [.encoder d]                    -- 301-303
  | .encode x _ => do                                       -- 306-314: the raw data is the plaintext
    match ← fetch env x with
    | .tensor d xs => .ok [.tensor d xs]
    | _ => .error .attribute
  | .batchEncode x _ k => do                                -- 317-345
    match ← fetch env x, ← fetch env k with
    | .mat _ rows, .key ctx => L.encodeRows ctx rows
    | _, _ => .error .attribute
  | .encrypt x pk rnd => do                                 -- 348-371
    match ← fetch env x, ← fetch env pk with
    | .tensor _ xs, .key ctx => do
      let p ← L.tryEncode xs
      let v ← ret ctx (L.tryEncrypt ctx rnd p)
      pure [v]
    | _, _ => .error .attribute
  | .decrypt c sk => do                                     -- 374-387
    match ← fetch env c, ← fetch env sk with
    | .cipher c _, .key ctx =>
      if ctx.kind = .secret then do
        let c ← full c
        pure [.plain (L.decrypt ctx.key c) ctx]
      else .error .attribute
    | _, _ => .error .attribute
  | .decode p _ => do                                       -- 390-400
    match ← fetch env p with
    | .plain p _ => .ok [.tensor "int64" (centred L.h p)]
    | _ => .error .attribute
  | .add a b rnd => do
    let v ← L.addV rnd (← fetch env a) (← fetch env b)
    pure [v]
  | .sub a b => do
    let v ← L.subV (← fetch env a) (← fetch env b)
    pure [v]
  | .mul a b rnd => do
    let v ← L.mulV rnd (← fetch env a) (← fetch env b)
    pure [v]
  | .relinearize c rk => do
    match ← fetch env c, ← fetch env rk with
    | .cipher c ctx, .key k => do
      let v ← L.relinV c ctx k
      pure [v]
    | _, _ => .error .attribute
  | .rotate c gk s => do
    match ← fetch env c, ← fetch env gk with
    | .cipher c ctx, .key k => do
      let v ← L.rotateV c ctx k s
      pure [v]
    | _, _ => .error .attribute
  | .rotateColumns c gk => do
    match ← fetch env c, ← fetch env gk with
    | .cipher c ctx, .key k => do
      let v ← L.rotateColumnsV c ctx k
      pure [v]
    | _, _ => .error .attribute
  | .wire x => do
    let v ← wired (← fetch env x)
    pure [v]

/-- A program: every operation adds its results to the values. -/
def Seal.run : List (Val L.t C) → List Instr → Except Err (List (Val L.t C))
  | env, [] => .ok env
  | env, i :: is => do
    let vs ← L.step env i
    Seal.run (env ++ vs) is

/-! ### Type rules -/

/-- Kinds of key types. /repo/mplang/dialects/bfv.py:96 -/
inductive KeyKind
  | pub
  | priv
  | relin
  | galois
  deriving DecidableEq, Repr

/-- The types: integer tensors of rank 1 and 2 with element type, plaintexts and ciphertexts of a vector type (element type and
size), encoders, keys. Tensors of other ranks or elements are `other`. /repo/mplang/dialects/bfv.py:96-240 -/
inductive Ty
  | tensor (elem : String) (n : Int)
  | mat (elem : String) (rows cols : Int)
  | other
  | plain (elem : String) (n : Int)
  | cipher (elem : String) (n : Int)
  | encoder (n : Int)
  | key (kind : KeyKind) (n : Int)
  deriving DecidableEq, Repr

/-- The type at a position. -/
def tyAt (Γ : List Ty) (i : Nat) : Except Err Ty :=
  match Γ[i]? with
  | some t => .ok t
  | none => .error .unbound

/-- `_check_arithmetic_operands` and the result type: that of the first ciphertext operand.
/repo/mplang/dialects/bfv.py:423-462 -/
def arithTy : Ty → Ty → Except Err Ty
  | .cipher e n, .cipher _ _ => .ok (.cipher e n)
  | .cipher e n, .plain _ _ => .ok (.cipher e n)
  | .plain _ _, .cipher e n => .ok (.cipher e n)
  | _, _ => .error .type

/-- The type rules. A move to another process keeps the type (/repo/mplang/dialects/simp.py). /repo/mplang/dialects/bfv.py:250-513 -/
def tyStep (Γ : List Ty) : Instr → Except Err (List Ty)
  | .relinKeys sk => do
    match ← tyAt Γ sk with
    | .key .priv n => .ok [.key .relin n]
    | _ => .error .type
  | .galoisKeys sk => do
    match ← tyAt Γ sk with
    | .key .priv n => .ok [.key .galois n]
    | _ => .error .type
  | .createEncoder d => .ok [.encoder d]
  | .encode x enc => do
    match ← tyAt Γ enc, ← tyAt Γ x with
    | .encoder n, .tensor e _ => .ok [.plain e n]
    | .encoder _, .mat _ _ _ => .error .value
    | _, _ => .error .type
  | .batchEncode x enc _ => do
    match ← tyAt Γ enc, ← tyAt Γ x with
    | .encoder n, .mat e rows _ => .ok (List.replicate rows.toNat (.plain e n))
    | .encoder _, .tensor _ _ => .error .value
    | _, _ => .error .type
  | .encrypt x pk _ => do
    match ← tyAt Γ x, ← tyAt Γ pk with
    | .plain e n, .key .pub _ => .ok [.cipher e n]
    | _, _ => .error .type
  | .decrypt c sk => do
    match ← tyAt Γ c, ← tyAt Γ sk with
    | .cipher e n, .key .priv _ => .ok [.plain e n]
    | _, _ => .error .type
  | .decode p enc => do
    match ← tyAt Γ enc, ← tyAt Γ p with
    | .encoder _, .plain e n => .ok [.tensor e n]
    | _, _ => .error .type
  | .add a b _ => do
    let t ← arithTy (← tyAt Γ a) (← tyAt Γ b)
    pure [t]
  | .sub a b => do
    let t ← arithTy (← tyAt Γ a) (← tyAt Γ b)
    pure [t]
  | .mul a b _ => do
    let t ← arithTy (← tyAt Γ a) (← tyAt Γ b)
    pure [t]
  | .relinearize c rk => do
    match ← tyAt Γ c, ← tyAt Γ rk with
    | .cipher e n, .key .relin _ => .ok [.cipher e n]
    | _, _ => .error .type
  | .rotate c gk _ => do
    match ← tyAt Γ c, ← tyAt Γ gk with
    | .cipher e n, .key .galois _ => .ok [.cipher e n]
    | _, _ => .error .type
  | .rotateColumns c gk => do
    match ← tyAt Γ c, ← tyAt Γ gk with
    | .cipher e n, .key .galois _ => .ok [.cipher e n]
    | _, _ => .error .type
  | .wire x => do
    let t ← tyAt Γ x
    pure [t]

/-- The types of all values of a program. -/
def tyRun : List Ty → List Instr → Except Err (List Ty)
  | Γ, [] => .ok Γ
  | Γ, i :: is => do
    let ts ← tyStep Γ i
    tyRun (Γ ++ ts) is

end Verif.Bfv
