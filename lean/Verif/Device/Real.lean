import Verif.Device.TransferProps
import Verif.Crypto.KemProps
/-!
# The transfers over the modelled crypto and TEE backends (C36)

`Verif.Device.TransferProps` proves the transfers correct for any local operations meeting `Contracts`.  Here the TEE and
crypto operations are the modelled backends of `Verif/Crypto` on runtime values; what remains assumed is the SPU library's
share reconstruction and the contracts of the cryptographic primitives (`CryptoLib.Ok`), of gzip and of float text
(`WireLib.Ok`).
-/
namespace Verif.Device
open Verif.Serde Verif.Crypto Verif.Simp

/-- `None` on an exception -/
def orNone {α : Type} : Except Err α → Option α
  | .ok a => some a
  | .error _ => none

/-- The local operations of the transfers, on runtime values: `crypto.kem_keygen(_TEE_KEM_SUITE)`, `tee.quote_gen`,
`tee.attest`, `crypto.kem_derive`, `crypto.hkdf(…, _TEE_HKDF_INFO)`, `crypto.sym_encrypt`, `crypto.sym_decrypt`
(libs/device/api.py:438-466, 566-619).  The SPU functions are parameters. -/
def realPrims (L : CryptoLib) (W : WireLib) (eq : PyVal → PyVal → Bool) (shares : Nat → PyVal → Nat → List PyVal)
    (recon : List PyVal → Option PyVal) : Prims PyVal where
  makeShares := shares
  reconstruct := recon
  keygen s := runKeygen L teeKemSuite s 0
  quote v := orNone (quoteGenV v)
  attest v := orNone (attestV v)
  derive a b := orNone (kemDerive L a b)
  hkdf k := orNone (hkdfImpl L teeHkdfInfo "sha256" k)
  encrypt s k v := orNone (symEncrypt L W "aes-gcm" s k v)
  decrypt k c := orNone (symDecrypt L W eq "aes-gcm" k c)

/-- the values the transfers carry: python values with python's own NaN that can be serialised -/
def Sendable (W : WireLib) (eq : PyVal → PyVal → Bool) (v : PyVal) : Prop :=
  v.WF eq ∧ v.goodFloats ∧ (dumps W true v).isSome = true

/-- The modelled backends meet the contracts. -/
theorem real_contracts {L : CryptoLib} (hL : L.Ok) {W : WireLib} (hW : W.Ok) {eq : PyVal → PyVal → Bool}
    (hs : ∀ s, eq (.str s) (.str s) = true) {shares : Nat → PyVal → Nat → List PyVal} {recon : List PyVal → Option PyVal}
    (h1 : ∀ s v n, (shares s v n).length = n)
    (h2 : ∀ s v n, Sendable W eq v → 0 < n → recon (shares s v n) = some v) :
    Contracts (realPrims L W eq shares recon) (Sendable W eq) where
  shares_len := h1
  shares_open := h2
  attest_quote s := by
    refine ⟨.leaf (.quote "mock" (L.pub (L.random s 32)) "x25519"), ?_, ?_⟩
    · simp [realPrims, runKeygen, kemKeygenImpl, quoteGenV, toArg, quoteGen, orNone]
    · simp [realPrims, runKeygen, kemKeygenImpl, attestV, toArg, attest, orNone]
  session s t := by
    obtain ⟨k, _, hk, e1, e2⟩ := hL.agree s t
    refine ⟨.leaf (.symKey "x25519" k), .leaf (.symKey "hkdf-sha256" (L.hkdf k (utf8Enc teeHkdfInfo))), ?_, ?_, ?_, ?_⟩
    · simp [realPrims, runKeygen, teeKemSuite, kemKeygenImpl, kemDerive, suiteAttr, keyBytesAttr, bind, Except.bind,
        hL.random_len, hL.pub_len _ (hL.random_len _ _), e1, orNone]
    · simp [realPrims, runKeygen, teeKemSuite, kemKeygenImpl, kemDerive, suiteAttr, keyBytesAttr, bind, Except.bind,
        hL.random_len, hL.pub_len _ (hL.random_len _ _), e2, orNone]
    · have := (hkdf_ok_iff L teeHkdfInfo "sha256" (.leaf (.symKey "x25519" k))
        (.leaf (.symKey "hkdf-sha256" (L.hkdf k (utf8Enc teeHkdfInfo))))).mpr
        ⟨by decide, by decide +kernel, k, .inl ⟨_, rfl⟩, rfl⟩
      simp only [realPrims, this, orNone]
    · intro n v hv
      obtain ⟨pt, hpt⟩ := Option.isSome_iff_exists.mp hv.2.2
      obtain ⟨nc, ct, he, _⟩ := sym_encrypt_total L W n (.leaf (.symKey "hkdf-sha256" (L.hkdf k (utf8Enc teeHkdfInfo)))) v _ pt rfl
        (.inr (.inr (hL.hkdf_len _ _))) hpt
      refine ⟨.leaf (.bytesV (nc ++ ct)), ?_, ?_⟩
      · simp only [realPrims, he, orNone]
      · have := sym_roundtrip hL hW hs "aes-gcm" "aes-gcm" rfl n _ _ v rfl hv.1 hv.2.1 _ he
        simp only [realPrims, this, orNone]

/-- **C36 on runtime values**: for every serialisable python value, moving it from any device to a PPU or TEE delivers exactly
that value to the target's member and to nobody else; the crypto and TEE steps are the modelled backends. -/
theorem real_transfer_delivers {L : CryptoLib} (hL : L.Ok) {W : WireLib} (hW : W.Ok) {eq : PyVal → PyVal → Bool}
    (hs : ∀ s, eq (.str s) (.str s) = true) {shares : Nat → PyVal → Nat → List PyVal} {recon : List PyVal → Option PyVal}
    (h1 : ∀ s v n, (shares s v n).length = n)
    (h2 : ∀ s v n, Sendable W eq v → 0 < n → recon (shares s v n) = some v)
    {T : Type} [DecidableEq T] (names : TyNames T) (rnd : Nat → Nat) (tr : PyVal → Bool) {N ctx : Nat}
    {devs : List (String × Dev)} {cache : Cache} {b : Bld PyVal T} {σ0 σ : Nat → List (LV PyVal)}
    (hrun : Run tr N b σ0 σ)
    (hcache : CacheOk (realPrims L W eq shares recon) (Sendable W eq) names N ctx devs cache b σ) {frmId toId : String}
    {frm dst : Dev} (hfrm : Store.lookup frmId devs = some frm) (hdst : Store.lookup toId devs = some dst) (hok1 : DevOk N frm)
    (hok2 : DevOk N dst) (hne : frmId ≠ toId) (hsup : Supported frm.kind dst.kind) (hplain : dst.kind ≠ .spu) {x : Nat} {vt : T}
    {v : PyVal} (hv : Sendable W eq v) (hx : OnDevice (realPrims L W eq shares recon) names N b σ x vt frm v) :
    ∃ y cache' b' r, d2d (realPrims L W eq shares recon) names rnd ctx devs toId frmId x cache b = some (y, cache', b') ∧
      dst.members = [r] ∧ Delivers tr N b' σ0 y (fun p => if p = r then some v else none) :=
  transfer_delivers (real_contracts hL hW hs h1 h2) names rnd tr hrun hcache hfrm hdst hok1 hok2 hne hsup hplain hv hx

/-- the contracts are met by the toy libraries with "shares" that are all the value itself, and `wireVal` is a value to send -/
example : Contracts (realPrims toyCrypto toyWire (fun a b => a.asStr? == b.asStr?) (fun _ v n => List.replicate n v) List.head?)
    (Sendable toyWire fun a b => a.asStr? == b.asStr?) ∧ Sendable toyWire (fun a b => a.asStr? == b.asStr?) wireVal := by
  refine ⟨real_contracts toyCrypto_ok toyWire_ok (by intro s; simp) (by simp) ?_, ?_, ?_, by decide +kernel⟩
  · intro s v n _ hn
    obtain ⟨m, rfl⟩ : ∃ m, n = m + 1 := ⟨n - 1, by omega⟩
    rfl
  · simp [wireVal, PyVal.WF, WFPairs, WFList, PyVal.asStr?]
  · simp [wireVal, PyVal.goodFloats, goodFloatsP, goodFloatsL, GoodFloat]

end Verif.Device
