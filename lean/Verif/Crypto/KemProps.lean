import Verif.Crypto.Kem
/-! # Properties C60 (key agreement), C70 (authenticated encryption), C71 (key suites) -/
namespace Verif.Crypto
open Verif.Serde

deriving instance DecidableEq for Except

/-! ## C60 -/

/-- **C60**: after each party generated a key pair (whatever suite names they asked for), deriving with the own private key
and the other's public key gives both parties the same symmetric key. -/
theorem kem_agree {L : CryptoLib} (hL : L.Ok) (suite₁ suite₂ : String) (s s' t t' : Nat) :
    ∃ k, kemDerive L (runKeygen L suite₁ s s').1 (runKeygen L suite₂ t t').2 = .ok k ∧
      kemDerive L (runKeygen L suite₂ t t').1 (runKeygen L suite₁ s s').2 = .ok k := by
  obtain ⟨k, _, _, h1, h2⟩ := hL.agree s t
  refine ⟨.leaf (.symKey "x25519" k), ?_, ?_⟩
  · simp [runKeygen, kemKeygenImpl, kemDerive, suiteAttr, keyBytesAttr, bind, Except.bind, hL.random_len,
      hL.pub_len _ (hL.random_len _ _), h1]
  · simp [runKeygen, kemKeygenImpl, kemDerive, suiteAttr, keyBytesAttr, bind, Except.bind, hL.random_len,
      hL.pub_len _ (hL.random_len _ _), h2]

/-- The two sides of the unknown-suite fallback of the backend agree only by accident: the XOR of one's private key with the
other's (independent) public key.  With the draws below the derived keys differ.  (The fallback is not reachable through
`kem_keygen`, which always makes X25519 keys, only with key values built by hand or deserialised.) -/
theorem kem_fallback_violated : ∃ L : CryptoLib,
    kemDerive L (kemKeygenImpl L "kyber768" 0 1).1 (kemKeygenImpl L "kyber768" 2 3).2 ≠
      kemDerive L (kemKeygenImpl L "kyber768" 2 3).1 (kemKeygenImpl L "kyber768" 0 1).2 := by
  refine ⟨⟨fun s n => List.replicate n (s * s), id, fun _ _ => none, fun _ _ => [], fun _ _ p => p, fun _ _ c => some c⟩, ?_⟩
  simp [kemKeygenImpl, kemDerive, suiteAttr, keyBytesAttr, bind, Except.bind, List.replicate]

/-- `hkdf` succeeds exactly on a non-empty info, an algorithm name that normalises to `sha256`, and a symmetric key or a
numeric tensor; the result depends only on the secret's bytes and on info. -/
theorem hkdf_ok_iff (L : CryptoLib) (info algo : String) (secret k : PyVal) :
    hkdfImpl L info algo secret = .ok k ↔
      info ≠ "" ∧ normAlgo algo = "sha256" ∧
      ∃ b, ((∃ s, secret = .leaf (.symKey s b)) ∨ ∃ d sh, secret = .tensor d sh b) ∧
        k = .leaf (.symKey "hkdf-sha256" (L.hkdf b (utf8Enc info))) := by
  have hcat : "hkdf-" ++ "sha256" = "hkdf-sha256" := by decide
  unfold hkdfImpl
  constructor
  · intro h
    split at h
    · cases h
    · rename_i hi
      split at h
      · rename_i s b
        split at h
        · rename_i hn
          cases h
          rw [hn, hcat]
          exact ⟨hi, rfl, b, .inl ⟨s, rfl⟩, rfl⟩
        · cases h
      · rename_i d sh b
        split at h
        · rename_i hn
          cases h
          rw [hn, hcat]
          exact ⟨hi, rfl, b, .inr ⟨d, sh, rfl⟩, rfl⟩
        · cases h
      · cases h
  · rintro ⟨hi, hn, b, (⟨s, rfl⟩ | ⟨d, sh, rfl⟩), rfl⟩
    · rw [if_neg hi]; simp only [hn, if_pos trivial, hcat]
    · rw [if_neg hi]; simp only [hn, if_pos trivial, hcat]

example : normAlgo "SHA-256" = "sha256" ∧ normAlgo "sha_256" = "sha256" ∧ normAlgo "sha512" ≠ "sha256" := by decide +kernel

/-! ## C70 -/

/-- **C70**: whatever `sym_encrypt` produced, `sym_decrypt` turns back into the same value, also when the two sides hold the key
in different forms (symmetric key, bytes, numeric tensor) as long as the bytes are the same. -/
theorem sym_roundtrip {L : CryptoLib} (hL : L.Ok) {W : WireLib} (hW : W.Ok) {eq : PyVal → PyVal → Bool}
    (hs : ∀ s, eq (.str s) (.str s) = true) (algo algo' : String) (halgo : algo' = "aes-gcm") (s : Nat)
    (key key' v : PyVal) (hk : symKeyBytes key' = symKeyBytes key)
    (hv : v.WF eq) (hg : v.goodFloats) (c : PyVal) (h : symEncrypt L W algo s key v = .ok c) :
    symDecrypt L W eq algo' key' c = .ok v := by
  subst halgo
  unfold symEncrypt at h
  split at h
  · cases h
  · split at h
    · cases h
    · rename_i k hkb
      split at h
      · cases h
      · rename_i pt hpt
        split at h
        · rename_i hlen
          cases h
          have hb := dumps_bytes hW true v pt hpt
          have hl := hL.random_len s 12
          simp only [symDecrypt, hk, hkb, ne_eq, not_true_eq_false, if_false, if_pos hlen]
          rw [List.take_left' hl, List.drop_left' hl, hL.gcm_dec k _ pt hlen hl hb]
          simp only [dumps_loads hW hs v hv hg true pt hpt]
        · cases h

/-- **C70**: encryption works for every serialisable value under every key of 16, 24 or 32 bytes. -/
theorem sym_encrypt_total (L : CryptoLib) (W : WireLib) (s : Nat) (key v : PyVal) (k pt : List Nat)
    (hk : symKeyBytes key = .ok k) (hlen : k.length = 16 ∨ k.length = 24 ∨ k.length = 32) (hd : dumps W true v = some pt) :
    ∃ n ct, symEncrypt L W "aes-gcm" s key v = .ok (.leaf (.bytesV (n ++ ct))) ∧ n = L.random s 12 := by
  have : gcmKeyOk k = true := by rcases hlen with h | h | h <;> simp [gcmKeyOk, h]
  exact ⟨L.random s 12, L.gcmEnc k (L.random s 12) pt, by simp [symEncrypt, hk, hd, this], rfl⟩

/-- **C70**: decryption is authenticated: it only succeeds on bytes that are a 12-byte nonce followed by the AES-GCM
encryption under the same key bytes and nonce of a serialisation of the returned value. -/
theorem sym_decrypt_genuine {L : CryptoLib} (hL : L.Ok) (W : WireLib) (eq : PyVal → PyVal → Bool) (algo : String)
    (key c v : PyVal) (h : symDecrypt L W eq algo key c = .ok v) :
    algo = "aes-gcm" ∧ ∃ k n pt, symKeyBytes key = .ok k ∧ gcmKeyOk k = true ∧ n.length = 12 ∧
      c = .leaf (.bytesV (n ++ L.gcmEnc k n pt)) ∧ loads W eq true pt = some v := by
  unfold symDecrypt at h
  split at h
  · cases h
  · rename_i ha
    refine ⟨by simpa using ha, ?_⟩
    split at h
    · cases h
    · rename_i k hk
      split at h
      · rename_i full
        split at h
        · rename_i hlen
          split at h
          · cases h
          · rename_i pt hpt
            split at h
            · rename_i v' hv
              cases h
              obtain ⟨hn, hc⟩ := hL.gcm_auth _ _ _ _ hpt
              refine ⟨k, full.take 12, pt, hk, hlen, hn, ?_, hv⟩
              rw [← hc, List.take_append_drop]
            · cases h
        · cases h
      · cases h

/-- **C70**: an algorithm other than `aes-gcm` is rejected by both operations. -/
theorem sym_algo_rejected (L : CryptoLib) (W : WireLib) (eq : PyVal → PyVal → Bool) (algo : String) (h : algo ≠ "aes-gcm")
    (s : Nat) (key v : PyVal) :
    symEncrypt L W algo s key v = .error .value ∧ symDecrypt L W eq algo key v = .error .value := by
  simp [symEncrypt, symDecrypt, h]

/-! ## The TEE session (C60) -/

/-- **C60**: sender and TEE end up with the same 32-byte session key, when the network delivers keys and quotes as sent
(see C72). -/
theorem tee_session_agree {L : CryptoLib} (hL : L.Ok) (deliver : PyVal → Except Err PyVal)
    (hdel : ∀ v, (∃ s b, IsBytes b ∧ v = .leaf (.pubKey s b)) ∨ (∃ p b s, IsBytes b ∧ v = .leaf (.quote p b s)) →
      deliver v = .ok v) (s t : Nat) :
    ∃ k, IsBytes k ∧ k.length = 32 ∧
      teeSession L deliver s t = .ok (.leaf (.symKey "hkdf-sha256" k), .leaf (.symKey "hkdf-sha256" k)) := by
  obtain ⟨k, hb, hk, h1, h2⟩ := hL.agree t s
  refine ⟨L.hkdf k (utf8Enc teeHkdfInfo), hL.hkdf_bytes _ _, hL.hkdf_len _ _, ?_⟩
  have hn : normAlgo "sha256" = "sha256" := by decide +kernel
  have hi : teeHkdfInfo ≠ "" := by decide
  have hcat : "hkdf-" ++ "sha256" = "hkdf-sha256" := by decide
  have d1 : ∀ p r s', deliver (.leaf (.quote p (L.pub r) s')) = .ok (.leaf (.quote p (L.pub r) s')) :=
    fun p r s' => hdel _ (.inr ⟨_, _, _, hL.pub_bytes _, rfl⟩)
  have d2 : ∀ r s', deliver (.leaf (.pubKey s' (L.pub r))) = .ok (.leaf (.pubKey s' (L.pub r))) :=
    fun r s' => hdel _ (.inl ⟨_, _, hL.pub_bytes _, rfl⟩)
  simp [teeSession, teeKemSuite, d1, d2, runKeygen, kemKeygenImpl, quoteGenV, toArg, quoteGen, attestV, attest, kemDerive, suiteAttr,
    keyBytesAttr, bind, Except.bind, hL.random_len, hL.pub_len _ (hL.random_len _ _), h1, h2, hkdfImpl, hi, hn, hcat]

/-- **C60/C70**: a value encrypted by the sender under the session key is read back unchanged by the TEE, and the other way
round. -/
theorem tee_session_transport {L : CryptoLib} (hL : L.Ok) {W : WireLib} (hW : W.Ok) {eq : PyVal → PyVal → Bool}
    (hs : ∀ s, eq (.str s) (.str s) = true) (deliver : PyVal → Except Err PyVal)
    (hdel : ∀ v, (∃ s b, IsBytes b ∧ v = .leaf (.pubKey s b)) ∨ (∃ p b s, IsBytes b ∧ v = .leaf (.quote p b s)) →
      deliver v = .ok v) (s t : Nat) (kf kt : PyVal) (hsess : teeSession L deliver s t = .ok (kf, kt))
    (v : PyVal) (hv : v.WF eq) (hg : v.goodFloats) (hd : (dumps W true v).isSome = true) (n : Nat) :
    (∃ c, symEncrypt L W "aes-gcm" n kf v = .ok c ∧ symDecrypt L W eq "aes-gcm" kt c = .ok v) ∧
    (∃ c, symEncrypt L W "aes-gcm" n kt v = .ok c ∧ symDecrypt L W eq "aes-gcm" kf c = .ok v) := by
  obtain ⟨k, _, hlen, h⟩ := tee_session_agree hL deliver hdel s t
  rw [h] at hsess
  cases hsess
  obtain ⟨pt, hpt⟩ := Option.isSome_iff_exists.mp hd
  obtain ⟨n', ct, he, _⟩ := sym_encrypt_total L W n (.leaf (.symKey "hkdf-sha256" k)) v k pt rfl (.inr (.inr hlen)) hpt
  have hdec := sym_roundtrip hL hW hs "aes-gcm" "aes-gcm" rfl n (.leaf (.symKey "hkdf-sha256" k)) (.leaf (.symKey "hkdf-sha256" k)) v
    rfl hv hg _ he
  exact ⟨⟨_, he, hdec⟩, ⟨_, he, hdec⟩⟩

/-! ## C71 -/

/-- the suite named by a key type -/
def typeSuite : Ty → Option String
  | .named .privKey s => some s
  | .named .pubKey s => some s
  | .named .symKey s => some s
  | _ => none

/-- the suite carried by a key value -/
def valueSuite : PyVal → Option String
  | .leaf (.privKey s _) => some s
  | .leaf (.pubKey s _) => some s
  | .leaf (.symKey s _) => some s
  | _ => none

/-- **C71 violated** for `kem_keygen`: asked for any suite but X25519, the announced type names that suite while both key
values are X25519 keys. -/
theorem keygen_suite_violated (L : CryptoLib) (suite : String) (h : suite ≠ "x25519") (s s' : Nat) :
    typeSuite (keygenTypes suite).1 ≠ valueSuite (runKeygen L suite s s').1 ∧
    typeSuite (keygenTypes suite).2 ≠ valueSuite (runKeygen L suite s s').2 ∧
    valueSuite (runKeygen L suite s s').1 = some "x25519" ∧ valueSuite (runKeygen L suite s s').2 = some "x25519" := by
  simp [typeSuite, keygenTypes, valueSuite, runKeygen, kemKeygenImpl, h]

/-- **C71** for the default suite. -/
theorem keygen_suite_partial (L : CryptoLib) (s s' : Nat) :
    typeSuite (keygenTypes "x25519").1 = valueSuite (runKeygen L "x25519" s s').1 ∧
    typeSuite (keygenTypes "x25519").2 = valueSuite (runKeygen L "x25519" s s').2 := by
  simp [typeSuite, keygenTypes, valueSuite, runKeygen, kemKeygenImpl]

/-- **C71** for `kem_derive`: if the private key's value carries the suite of its type, so does the derived key. -/
theorem derive_suite (L : CryptoLib) (sk pk k : PyVal) (t : Ty) (ht : typeSuite t = valueSuite sk) (hv : (valueSuite sk).isSome)
    (h : kemDerive L sk pk = .ok k) : typeSuite (deriveType t) = valueSuite k := by
  have hk : ∃ b, k = .leaf (.symKey (suiteAttr sk) b) := by
    simp only [kemDerive, bind, Except.bind] at h
    split at h
    · cases h
    · split at h
      · cases h
      · split at h
        · split at h
          · split at h
            · cases h; exact ⟨_, rfl⟩
            · cases h
          · cases h
        · split at h
          · cases h; exact ⟨_, rfl⟩
          · cases h
  obtain ⟨b, rfl⟩ := hk
  have hsk : valueSuite sk = some (suiteAttr sk) := by
    unfold valueSuite at hv ⊢
    split <;> simp_all [suiteAttr]
  rw [hsk] at ht
  have : typeSuite (deriveType t) = typeSuite t := by
    unfold typeSuite at ht
    split at ht <;> first | rfl | cases ht
  rw [this, ht]
  rfl

/-- **C71** for `hkdf`: whenever the operation runs, the key's suite is the one of the type announced for it. -/
theorem hkdf_suite (L : CryptoLib) (info algo : String) (secret k : PyVal) (t : Ty) (ht : hkdfType info algo = .ok t)
    (h : hkdfImpl L info algo secret = .ok k) : typeSuite t = valueSuite k := by
  obtain ⟨_, hn, b, _, rfl⟩ := (hkdf_ok_iff L info algo secret k).mp h
  unfold hkdfType at ht
  split at ht
  · cases ht
  · split at ht
    · cases ht
    · cases ht
      rw [hn]
      rfl

/-! ## Non-vacuity -/

/-- A library meeting the contract: constant public keys, "encryption" appends the key and nonce as tag. -/
def toyCrypto : CryptoLib where
  random s n := List.replicate n (s % 256)
  pub _ := List.replicate 32 9
  exchange _ _ := some (List.replicate 32 7)
  hkdf _ i := (i.map (· % 256)).take 32 ++ List.replicate (32 - i.length) 1
  gcmEnc k n p := p ++ (k ++ n).map (· % 256)
  gcmDec k n c :=
    if n.length = 12 ∧ c.drop (c.length - (k ++ n).length) = (k ++ n).map (· % 256) then
      some (c.take (c.length - (k ++ n).length)) else none

theorem toyCrypto_ok : toyCrypto.Ok where
  random_len s n := by simp [toyCrypto]
  random_bytes s n x hx := by
    simp only [toyCrypto, List.mem_replicate] at hx
    rw [hx.2]; exact Nat.mod_lt _ (by decide)
  pub_len k _ := by simp [toyCrypto]
  pub_bytes k x hx := by
    simp only [toyCrypto, List.mem_replicate] at hx
    rw [hx.2]; decide
  agree s t := by
    refine ⟨List.replicate 32 7, ?_, by simp, rfl, rfl⟩
    intro x hx
    simp only [List.mem_replicate] at hx
    rw [hx.2]; decide
  hkdf_len k i := by simp [toyCrypto]; omega
  hkdf_bytes k i x hx := by
    simp only [toyCrypto, List.mem_append, List.mem_replicate] at hx
    rcases hx with hx | hx
    · obtain ⟨y, _, rfl⟩ := List.mem_map.mp (List.mem_of_mem_take hx)
      exact Nat.mod_lt _ (by decide)
    · rw [hx.2]; decide
  gcm_dec k n p _ hn _ := by
    have h1 : (p ++ (k ++ n).map (· % 256)).length - (k ++ n).length = p.length := by simp
    simp only [toyCrypto, h1]
    rw [if_pos]
    · simp
    · exact ⟨hn, List.drop_left⟩
  gcm_auth k n c p h := by
    simp only [toyCrypto] at h ⊢
    split at h
    · rename_i hc
      cases h
      refine ⟨hc.1, ?_⟩
      conv => lhs; rw [← List.take_append_drop (c.length - (k ++ n).length) c]
      rw [hc.2]
    · cases h
  gcm_bytes k n p hp x hx := by
    simp only [toyCrypto, List.mem_append] at hx
    rcases hx with hx | hx
    · exact hp x hx
    · obtain ⟨y, _, rfl⟩ := List.mem_map.mp hx
      exact Nat.mod_lt _ (by decide)

end Verif.Crypto
