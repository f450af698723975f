import Verif.Crypto.Tee
import Verif.Serde.WireProps
/-!
# Key exchange, key derivation and authenticated encryption (backends/crypto_impl.py, dialects/crypto.py)

Runtime values are `Verif.Serde.PyVal`.  What the `cryptography` package computes (X25519, HKDF, AES-GCM) and `os.urandom`
are the fields of `CryptoLib`, with their contracts in `CryptoLib.Ok`.
-/
namespace Verif.Crypto
open Verif.Serde

/-- Library functions.  `random s n` is the `n`-byte result of the random draw number `s`. -/
structure CryptoLib where
  random : Nat → Nat → List Nat
  /-- X25519 public key of a private key -/
  pub : List Nat → List Nat
  /-- X25519 exchange of a private and a public key, `none` when the library refuses (all-zero result) -/
  exchange : List Nat → List Nat → Option (List Nat)
  /-- HKDF-SHA256, 32 bytes, no salt: key material, info -/
  hkdf : List Nat → List Nat → List Nat
  /-- AES-GCM: key, nonce, plaintext; the tag is appended -/
  gcmEnc : List Nat → List Nat → List Nat → List Nat
  /-- AES-GCM: key, nonce, ciphertext with tag; `none` = `InvalidTag` -/
  gcmDec : List Nat → List Nat → List Nat → Option (List Nat)

/-- `AESGCM(k)` accepts 128, 192 and 256 bit keys -/
def gcmKeyOk (k : List Nat) : Bool := k.length == 16 || k.length == 24 || k.length == 32

/-- all entries are bytes -/
def IsBytes (b : List Nat) : Prop := ∀ x ∈ b, x < 256

/-- What the libraries promise. -/
structure CryptoLib.Ok (L : CryptoLib) : Prop where
  random_len : ∀ s n, (L.random s n).length = n
  random_bytes : ∀ s n, IsBytes (L.random s n)
  pub_len : ∀ k, k.length = 32 → (L.pub k).length = 32
  pub_bytes : ∀ k, IsBytes (L.pub k)
  /-- two fresh key pairs agree (X25519 with genuine public keys) -/
  agree : ∀ s t, ∃ k, IsBytes k ∧ k.length = 32 ∧ L.exchange (L.random s 32) (L.pub (L.random t 32)) = some k ∧
    L.exchange (L.random t 32) (L.pub (L.random s 32)) = some k
  hkdf_len : ∀ k i, (L.hkdf k i).length = 32
  hkdf_bytes : ∀ k i, IsBytes (L.hkdf k i)
  gcm_dec : ∀ k n p, gcmKeyOk k = true → n.length = 12 → IsBytes p → L.gcmDec k n (L.gcmEnc k n p) = some p
  /-- the tag authenticates: only the encryption of `p` decrypts to `p` -/
  gcm_auth : ∀ k n c p, L.gcmDec k n c = some p → n.length = 12 ∧ c = L.gcmEnc k n p
  gcm_bytes : ∀ k n p, IsBytes p → IsBytes (L.gcmEnc k n p)

/-! ## KEM -/

/-- `kem_keygen_impl(interpreter, op, suite="x25519")` (crypto_impl.py:551-585); draws `s` and, for an unknown suite, `s'`. -/
def kemKeygenImpl (L : CryptoLib) (suite : String) (s s' : Nat) : PyVal × PyVal :=
  if suite = "x25519" then
    (.leaf (.privKey suite (L.random s 32)), .leaf (.pubKey suite (L.pub (L.random s 32))))
  else (.leaf (.privKey suite (L.random s 32)), .leaf (.pubKey suite (L.random s' 32)))

/-- Executing `crypto.kem_keygen(suite)` (dialects/crypto.py:487-497): the suite is only an attribute of the operation, and
the interpreter calls handlers as `handler(self, op, *args)` without attributes (runtime/interpreter.py:975), so the
handler runs with its default `suite="x25519"`. -/
def runKeygen (L : CryptoLib) (_suite : String) (s s' : Nat) : PyVal × PyVal := kemKeygenImpl L "x25519" s s'

/-- types announced for the two keys: `_kem_keygen_ae` (dialects/crypto.py:329-331) -/
def keygenTypes (suite : String) : Ty × Ty := (.named .privKey suite, .named .pubKey suite)

/-- `obj.key_bytes` (crypto_impl.py:99-101, 480, 508, 536) -/
def keyBytesAttr : PyVal → Except Err (List Nat)
  | .leaf (.privKey _ b) => .ok b
  | .leaf (.pubKey _ b) => .ok b
  | .leaf (.symKey _ b) => .ok b
  | .leaf (.ecPoint b) => .ok b
  | _ => .error .attribute

/-- `getattr(private_key, "suite", "x25519")` (crypto_impl.py:596) -/
def suiteAttr : PyVal → String
  | .leaf (.privKey s _) => s
  | .leaf (.pubKey s _) => s
  | .leaf (.symKey s _) => s
  | .leaf (.quote _ _ s) => s
  | _ => "x25519"

/-- `kem_derive_impl` (crypto_impl.py:588-614) -/
def kemDerive (L : CryptoLib) (sk pk : PyVal) : Except Err PyVal := do
  let suite := suiteAttr sk
  let a ← keyBytesAttr sk
  let b ← keyBytesAttr pk
  if suite = "x25519" then
    if a.length = 32 ∧ b.length = 32 then
      match L.exchange a b with
      | some k => .ok (.leaf (.symKey suite k))
      | none => .error .value
    else .error .value
  else if a.length = b.length then .ok (.leaf (.symKey suite (a.zipWith (fun x y => Nat.xor x y) b)))
  else .error .value

/-- type announced for the derived key: `_kem_derive_ae` (dialects/crypto.py:334-339) -/
def deriveType : Ty → Ty
  | .named .privKey s => .named .symKey s
  | .named .pubKey s => .named .symKey s
  | .named .symKey s => .named .symKey s
  | _ => .named .symKey "x25519"

/-! ## HKDF -/

/-- `hash_algo.lower().replace("-", "").replace("_", "")` (crypto_impl.py:659-661; dialects/crypto.py:371).  Simplification:
`lower` acts on ASCII letters; no other character lowers to a character of `sha256`. -/
def normAlgo (s : String) : String := String.ofList ((s.toList.map Char.toLower).filter fun c => c != '-' && c != '_')

/-- `hkdf_impl` (crypto_impl.py:617-709) -/
def hkdfImpl (L : CryptoLib) (info algo : String) (secret : PyVal) : Except Err PyVal :=
  if info = "" then .error .value
  else
    match secret with
    | .leaf (.symKey _ b) =>
      if normAlgo algo = "sha256" then .ok (.leaf (.symKey ("hkdf-" ++ normAlgo algo) (L.hkdf b (utf8Enc info))))
      else .error .notImpl
    | .tensor _ _ b =>
      if normAlgo algo = "sha256" then .ok (.leaf (.symKey ("hkdf-" ++ normAlgo algo) (L.hkdf b (utf8Enc info))))
      else .error .notImpl
    | _ => .error .type

/-- type announced by `_hkdf_ae` (dialects/crypto.py:342-374), or its exception -/
def hkdfType (info algo : String) : Except Err Ty :=
  if info = "" then .error .value
  else if algo = "" then .error .type
  else .ok (.named .symKey ("hkdf-" ++ normAlgo algo))

/-! ## AES-GCM -/

/-- key bytes of `sym_encrypt` / `sym_decrypt` (crypto_impl.py:362-373, 409-420).  Simplification: a `TensorValue` over an
object array (whose `tobytes()` are addresses) is an error here. -/
def symKeyBytes : PyVal → Except Err (List Nat)
  | .leaf (.symKey _ b) => .ok b
  | .leaf (.bytesV b) => .ok b
  | .tensor _ _ b => .ok b
  | _ => .error .type

/-- `sym_encrypt_impl` (crypto_impl.py:346-387); the nonce is draw `s` -/
def symEncrypt (L : CryptoLib) (W : WireLib) (algo : String) (s : Nat) (key v : PyVal) : Except Err PyVal :=
  if algo ≠ "aes-gcm" then .error .value
  else
    match symKeyBytes key with
    | .error e => .error e
    | .ok k =>
      match dumps W true v with
      | none => .error .type
      | some pt =>
        if gcmKeyOk k then .ok (.leaf (.bytesV (L.random s 12 ++ L.gcmEnc k (L.random s 12) pt))) else .error .value

/-- `sym_decrypt_impl` (crypto_impl.py:390-438) -/
def symDecrypt (L : CryptoLib) (W : WireLib) (eq : PyVal → PyVal → Bool) (algo : String) (key c : PyVal) :
    Except Err PyVal :=
  if algo ≠ "aes-gcm" then .error .value
  else
    match symKeyBytes key with
    | .error e => .error e
    | .ok k =>
      match c with
      | .leaf (.bytesV full) =>
        if gcmKeyOk k then
          match L.gcmDec k (full.take 12) (full.drop 12) with
          | none => .error .invalidTag
          | some pt =>
            match loads W eq true pt with
            | some v => .ok v
            | none => .error .value
        else .error .value
      | _ => .error .type

/-! ## TEE operations on runtime values -/

/-- the argument of `quote_gen` and `attest` as `Verif.Crypto.Arg` (tee_impl.py:124-208) -/
def toArg : PyVal → Arg
  | .leaf (.pubKey s b) => .pk ⟨s, b⟩
  | .leaf (.quote p b s) => .quote ⟨p, b, s⟩
  | .leaf (.bytesV b) => .bytes b
  | .bytes b => .bytes b
  | .ndarray "uint8" _ b => .bytes b
  | _ => .other

/-- `tee.quote_gen` on a runtime value (tee_impl.py:124-160) -/
def quoteGenV (v : PyVal) : Except Err PyVal :=
  match quoteGen (toArg v) with
  | .ok q => .ok (.leaf (.quote q.platform q.boundPk q.suite))
  | .error e => .error e

/-- `tee.attest` on a runtime value (tee_impl.py:163-208) -/
def attestV (v : PyVal) : Except Err PyVal :=
  match attest (toArg v) with
  | .ok k => .ok (.leaf (.pubKey k.suite k.keyBytes))
  | .error e => .error e

/-- `_TEE_KEM_SUITE` (libs/device/api.py:65) -/
def teeKemSuite : String := "x25519"
/-- `_TEE_HKDF_INFO` (libs/device/api.py:68) -/
def teeHkdfInfo : String := "mplang/device/tee/v2"

/-- The local computations of the two parties of a TEE session (libs/device/api.py:438-466): the TEE's key pair is draw `s`,
the sender's is draw `t`; `deliver` is what the network does to the quote and to the sender's public key.  Result: the
sender's and the TEE's session key. -/
def teeSession (L : CryptoLib) (deliver : PyVal → Except Err PyVal) (s t : Nat) : Except Err (PyVal × PyVal) := do
  let teeKeys := runKeygen L teeKemSuite s 0
  let quote ← quoteGenV teeKeys.2
  let quoteAtSender ← deliver quote
  let teePkAtSender ← attestV quoteAtSender
  let vKeys := runKeygen L teeKemSuite t 0
  let vPkAtTee ← deliver vKeys.2
  let sharedFrm ← kemDerive L vKeys.1 teePkAtSender
  let sharedTee ← kemDerive L teeKeys.1 vPkAtTee
  let sessFrm ← hkdfImpl L teeHkdfInfo "sha256" sharedFrm
  let sessTee ← hkdfImpl L teeHkdfInfo "sha256" sharedTee
  .ok (sessFrm, sessTee)

end Verif.Crypto
