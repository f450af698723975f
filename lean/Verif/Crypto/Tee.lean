import Verif.Serde.Lemmas

/-! # Mock TEE quotes (backends/tee_impl.py)

Bytes are naturals below 256.  UTF-8 is Lean's own `String.toUTF8` / `String.fromUTF8?`. -/

namespace Verif.Crypto
open Verif.Serde

/-- python exceptions that the modelled code can raise (kinds only) -/
inductive Err where
  | value | index | unicode | type | key | invalidTag | notImpl | attribute | overflow
  deriving DecidableEq, Repr

/-- `str.encode("utf-8")` (tee_impl.py:83-84).  Simplification: python strings holding lone surrogates (which raise
`UnicodeEncodeError`) do not exist here. -/
def utf8Enc (s : String) : List Nat := s.toUTF8.data.toList.map UInt8.toNat

/-- `bytes.decode("utf-8")` (tee_impl.py:97, 100) -/
def utf8Dec (l : List Nat) : Except Err String :=
  match String.fromUTF8? ⟨(l.map UInt8.ofNat).toArray⟩ with
  | some s => .ok s
  | none => .error .unicode

/-- `MockQuoteValue` (tee_impl.py:48-68) -/
structure Quote where
  platform : String
  boundPk : List Nat
  suite : String
  deriving DecidableEq, Repr

/-- `PublicKeyValue` (backends/crypto_impl.py:493-518) -/
structure PublicKey where
  suite : String
  keyBytes : List Nat
  deriving DecidableEq, Repr

/-- `bytes([n])`: raises `ValueError` above 255 (tee_impl.py:86, 88) -/
def oneByte (n : Nat) : Except Err (List Nat) := if n < 256 then .ok [n] else .error .value

/-- `MockQuoteValue.to_bytes` (tee_impl.py:80-91) -/
def Quote.toBytes (q : Quote) : Except Err (List Nat) := do
  let p := utf8Enc q.platform
  let s := utf8Enc q.suite
  let pl ← oneByte p.length
  let sl ← oneByte s.length
  .ok (pl ++ p ++ sl ++ s ++ q.boundPk)

/-- `data[i]` on bytes: `IndexError` past the end (tee_impl.py:96, 99) -/
def byteAt (data : List Nat) (i : Nat) : Except Err Nat :=
  match data[i]? with
  | some b => .ok b
  | none => .error .index

/-- `data[a:b]` (tee_impl.py:97, 100, 102): python slices clip to the length -/
def slice (data : List Nat) (a b : Nat) : List Nat := (data.drop a).take (b - a)

/-- `MockQuoteValue.from_bytes` (tee_impl.py:93-103) -/
def Quote.fromBytes (data : List Nat) : Except Err Quote := do
  let platformLen ← byteAt data 0
  let platform ← utf8Dec (slice data 1 (1 + platformLen))
  let suiteStart := 1 + platformLen
  let suiteLen ← byteAt data suiteStart
  let suite ← utf8Dec (slice data (suiteStart + 1) (suiteStart + 1 + suiteLen))
  let pkStart := suiteStart + 1 + suiteLen
  let boundPk := slice data pkStart (pkStart + 32)
  .ok ⟨platform, boundPk, suite⟩

/-- `MockQuoteValue.to_json` (tee_impl.py:66-71) -/
def Quote.toJson (q : Quote) : Json :=
  .obj [("platform", .str q.platform), ("bound_pk", .str (String.ofList (b64enc q.boundPk))), ("suite", .str q.suite)]

/-- `MockQuoteValue.from_json` (tee_impl.py:73-79) -/
def Quote.fromJson : Json → Except Err Quote
  | .obj fs =>
    match getStr "platform" fs, getStr "bound_pk" fs, getStr "suite" fs with
    | some p, some b, some s =>
      match b64dec b.toList with
      | some pk => .ok ⟨p, pk, s⟩
      | none => .error .value
    | _, _, _ => .error .key
  | _ => .error .type

/-- Runtime argument of an operation, as far as `quote_gen` and `attest` look at it (tee_impl.py:124-160, 163-208) -/
inductive Arg where
  | pk (k : PublicKey)
  | quote (q : Quote)
  /-- `BytesValue`, `bytes`, `bytearray` or a uint8 `np.ndarray` -/
  | bytes (b : List Nat)
  | other
  deriving DecidableEq, Repr

/-- `_quote_gen_impl` (tee_impl.py:124-160) -/
def quoteGen : Arg → Except Err Quote
  | .pk k => .ok ⟨"mock", k.keyBytes, k.suite⟩
  | _ => .error .type

/-- `_attest_impl` (tee_impl.py:163-208) -/
def attest : Arg → Except Err PublicKey
  | .quote q => .ok ⟨q.suite, q.boundPk⟩
  | .bytes b => do
    let q ← Quote.fromBytes b
    .ok ⟨q.suite, q.boundPk⟩
  | _ => .error .type

/-! ## Lemmas -/

theorem utf8_roundtrip (s : String) : utf8Dec (utf8Enc s) = .ok s := by
  have h : (⟨((utf8Enc s).map UInt8.ofNat).toArray⟩ : ByteArray) = s.toByteArray := by
    simp [utf8Enc, List.map_map, Function.comp_def, UInt8.ofNat_toNat]
  unfold utf8Dec
  rw [h]
  unfold String.fromUTF8?
  rw [dif_pos s.isValidUTF8]
  rfl

theorem utf8_bytes (s : String) : ∀ b ∈ utf8Enc s, b < 256 := by
  intro b hb
  simp only [utf8Enc, List.mem_map] at hb
  obtain ⟨u, _, rfl⟩ := hb
  exact u.toNat_lt

theorem utf8_sound (l : List Nat) (hl : ∀ b ∈ l, b < 256) (s : String) (h : utf8Dec l = .ok s) : utf8Enc s = l := by
  unfold utf8Dec String.fromUTF8? at h
  split at h
  · rename_i t ht
    split at ht
    · cases ht; cases h
      simp only [utf8Enc, String.fromUTF8, String.toUTF8, List.map_map]
      conv => rhs; rw [← List.map_id l]
      refine List.map_congr_left fun b hb => ?_
      simp [UInt8.toNat_ofNat_of_lt' (hl b hb)]
    · cases ht
  · cases h

theorem utf8_ascii_mock : utf8Enc "mock" = [109, 111, 99, 107] := by decide +kernel

theorem fromBytes_layout (p s pk : List Nat) :
    Quote.fromBytes (p.length :: (p ++ s.length :: (s ++ pk))) =
      (do
        let platform ← utf8Dec p
        let suite ← utf8Dec s
        .ok ⟨platform, pk.take 32, suite⟩) := by
  have h1 : byteAt (p.length :: (p ++ s.length :: (s ++ pk))) (1 + p.length) = .ok s.length := by
    unfold byteAt
    rw [show 1 + p.length = p.length + 1 by omega, List.getElem?_cons_succ,
      List.getElem?_append_right (Nat.le_refl _)]
    simp
  have h2 : slice (p.length :: (p ++ s.length :: (s ++ pk))) 1 (1 + p.length) = p := by
    simp [slice]
  have h3 : slice (p.length :: (p ++ s.length :: (s ++ pk))) (1 + p.length + 1) (1 + p.length + 1 + s.length) = s := by
    unfold slice
    rw [show 1 + p.length + 1 = (p.length + 1) + 1 by omega, List.drop_succ_cons,
      List.drop_append, List.drop_eq_nil_of_le (by omega)]
    simp
  have h4 : slice (p.length :: (p ++ s.length :: (s ++ pk))) (1 + p.length + 1 + s.length)
      (1 + p.length + 1 + s.length + 32) = pk.take 32 := by
    unfold slice
    rw [show 1 + p.length + 1 + s.length = (p.length + (s.length + 1)) + 1 by omega, List.drop_succ_cons,
      List.drop_append, List.drop_eq_nil_of_le (by omega)]
    simp
  unfold Quote.fromBytes
  simp only [byteAt, List.getElem?_cons_zero] at *
  simp only [bind, Except.bind, h1, h2, h3, h4]

theorem toBytes_eq (q : Quote) (hp : (utf8Enc q.platform).length < 256) (hs : (utf8Enc q.suite).length < 256) :
    q.toBytes = .ok ((utf8Enc q.platform).length :: (utf8Enc q.platform ++
      (utf8Enc q.suite).length :: (utf8Enc q.suite ++ q.boundPk))) := by
  unfold Quote.toBytes oneByte
  simp [hp, hs, bind, Except.bind]

/-! ## C59 -/

/-- **C59** (binary form).  A quote whose platform and suite names take at most 255 UTF-8 bytes and whose key is at most
32 bytes long is recovered exactly from its bytes. -/
theorem quote_bytes_roundtrip (q : Quote) (hp : (utf8Enc q.platform).length ≤ 255)
    (hs : (utf8Enc q.suite).length ≤ 255) (hk : q.boundPk.length ≤ 32) :
    ∃ d, q.toBytes = .ok d ∧ Quote.fromBytes d = .ok q := by
  refine ⟨_, toBytes_eq q (by omega) (by omega), ?_⟩
  rw [fromBytes_layout, utf8_roundtrip, utf8_roundtrip, List.take_of_length_le hk]
  rfl

/-- a real x25519 key travels unchanged -/
example : ∃ d, (Quote.toBytes ⟨"mock", List.replicate 32 200, "x25519"⟩) = .ok d ∧ d.length = 1 + 4 + 1 + 6 + 32 ∧
    Quote.fromBytes d = .ok ⟨"mock", List.replicate 32 200, "x25519"⟩ := by
  obtain ⟨d, h1, h2⟩ := quote_bytes_roundtrip ⟨"mock", List.replicate 32 200, "x25519"⟩ (by decide +kernel)
    (by decide +kernel) (by decide +kernel)
  refine ⟨d, h1, ?_, h2⟩
  rw [toBytes_eq _ (by decide +kernel) (by decide +kernel)] at h1
  cases h1
  decide +kernel

/-- **C59**, exact limits: serialising succeeds precisely when both names fit their length byte. -/
theorem quote_bytes_ok_iff (q : Quote) :
    (∃ d, q.toBytes = .ok d) ↔ (utf8Enc q.platform).length ≤ 255 ∧ (utf8Enc q.suite).length ≤ 255 := by
  constructor
  · rintro ⟨d, h⟩
    unfold Quote.toBytes oneByte at h
    simp only [bind, Except.bind] at h
    by_cases hp : (utf8Enc q.platform).length < 256
    · rw [if_pos hp] at h
      by_cases hs : (utf8Enc q.suite).length < 256
      · omega
      · rw [if_neg hs] at h; cases h
    · rw [if_neg hp] at h; cases h
  · rintro ⟨hp, hs⟩
    exact ⟨_, toBytes_eq q (by omega) (by omega)⟩

/-- **C59** (JSON form): every quote is recovered exactly, whatever the length of its key. -/
theorem quote_json_roundtrip (q : Quote) (hk : ∀ b ∈ q.boundPk, b < 256) :
    Quote.fromJson q.toJson = .ok q := by
  have h : b64dec (b64enc q.boundPk) = some q.boundPk := b64dec_enc _ hk
  simp [Quote.toJson, Quote.fromJson, getStr, lookup, h]

example : Quote.fromJson (Quote.toJson ⟨"mock", List.replicate 40 255, "x25519"⟩) =
    .ok ⟨"mock", List.replicate 40 255, "x25519"⟩ :=
  quote_json_roundtrip _ (by decide +kernel)

/-- **C59** (attestation): attesting a generated quote returns exactly the public key bound into it, whether the quote
object itself is handed over or (for keys of at most 32 bytes) its bytes. -/
theorem attest_returns_bound_key (k : PublicKey) :
    ∃ q, quoteGen (.pk k) = .ok q ∧ attest (.quote q) = .ok k ∧
      ((utf8Enc k.suite).length ≤ 255 → k.keyBytes.length ≤ 32 →
        ∃ d, q.toBytes = .ok d ∧ attest (.bytes d) = .ok k) := by
  refine ⟨⟨"mock", k.keyBytes, k.suite⟩, rfl, rfl, fun hs hk => ?_⟩
  obtain ⟨d, h1, h2⟩ := quote_bytes_roundtrip ⟨"mock", k.keyBytes, k.suite⟩
    (show (utf8Enc "mock").length ≤ 255 by decide +kernel) hs hk
  refine ⟨d, h1, ?_⟩
  simp only [attest, h2, bind, Except.bind]

example : ∃ q, quoteGen (.pk ⟨"x25519", List.replicate 32 7⟩) = .ok q ∧ q.platform = "mock" ∧
    attest (.quote q) = .ok ⟨"x25519", List.replicate 32 7⟩ := ⟨_, rfl, rfl, rfl⟩

/-- Outside the claimed range: a key longer than 32 bytes (e.g. a secp256k1 public key) is silently cut to its first 32
bytes by the binary form, and attestation succeeds with the cut key. -/
theorem quote_long_key_truncated (q : Quote) (hp : (utf8Enc q.platform).length ≤ 255)
    (hs : (utf8Enc q.suite).length ≤ 255) :
    ∃ d, q.toBytes = .ok d ∧ attest (.bytes d) = .ok ⟨q.suite, q.boundPk.take 32⟩ := by
  refine ⟨_, toBytes_eq q (by omega) (by omega), ?_⟩
  simp only [attest]
  rw [fromBytes_layout, utf8_roundtrip, utf8_roundtrip]
  rfl

/-- Truncated quotes are accepted: cutting bytes off the end yields a quote with a shorter key, not an error. -/
theorem quote_truncated_accepted (q : Quote) (hp : (utf8Enc q.platform).length ≤ 255)
    (hs : (utf8Enc q.suite).length ≤ 255) (hk : q.boundPk.length ≤ 32) (n : Nat) (hn : n ≤ q.boundPk.length) :
    ∃ d, q.toBytes = .ok d ∧
      attest (.bytes (d.take (d.length - n))) = .ok ⟨q.suite, q.boundPk.take (q.boundPk.length - n)⟩ := by
  refine ⟨_, toBytes_eq q (by omega) (by omega), ?_⟩
  simp only [attest]
  have e : ∀ (p s pk : List Nat), n ≤ pk.length →
      (p.length :: (p ++ s.length :: (s ++ pk))).take ((p.length :: (p ++ s.length :: (s ++ pk))).length - n) =
        p.length :: (p ++ s.length :: (s ++ pk.take (pk.length - n))) := by
    intro p s pk h
    have e1 : p.length :: (p ++ s.length :: (s ++ pk)) = (p.length :: (p ++ s.length :: s)) ++ pk := by simp
    have e2 : (p.length :: (p ++ s.length :: (s ++ pk))).length - n =
        (p.length :: (p ++ s.length :: s)).length + (pk.length - n) := by simp; omega
    rw [e2, e1, List.take_length_add_append]
    simp
  rw [e _ _ _ hn, fromBytes_layout, utf8_roundtrip, utf8_roundtrip]
  simp only [bind, Except.bind]
  rw [List.take_of_length_le (by simp; omega)]

/-- Distinct quotes in the supported range never share their bytes, and distinct keys never share an attestation. -/
theorem quote_bytes_injective (q q' : Quote) (hk : q.boundPk.length ≤ 32) (hk' : q'.boundPk.length ≤ 32)
    (d : List Nat) (h : q.toBytes = .ok d) (h' : q'.toBytes = .ok d) : q = q' := by
  have a := (quote_bytes_ok_iff q).1 ⟨d, h⟩
  have b := (quote_bytes_ok_iff q').1 ⟨d, h'⟩
  obtain ⟨e, h1, h2⟩ := quote_bytes_roundtrip q a.1 a.2 hk
  obtain ⟨e', h1', h2'⟩ := quote_bytes_roundtrip q' b.1 b.2 hk'
  rw [h] at h1; rw [h'] at h1'
  cases h1; cases h1'
  rw [h2] at h2'
  cases h2'; rfl

end Verif.Crypto
