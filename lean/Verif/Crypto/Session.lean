import Verif.Crypto.KemProps
import Verif.Comm.Http
/-! # The TEE handshake over the modelled transports (C60 with C72) -/
namespace Verif.Crypto
open Verif.Serde Verif.Comm.Http

/-- a value through the in-memory communicator with serialisation (mem.py:79-82) -/
def memWire (W : WireLib) (eq : PyVal → PyVal → Bool) (v : PyVal) : Except Err PyVal :=
  match memDeliver W eq true false v with
  | some v => .ok v
  | none => .error .value

/-- a value through the JSON envelope of the HTTP communicator (http.py:414-422, 820-835) -/
def httpWire (W : WireLib) (eq : PyVal → PyVal → Bool) (rank : Nat) (v : PyVal) : Except Err PyVal :=
  match encode W false rank false v with
  | some m =>
    match decode W eq m with
    | .ok r => .ok r.2
    | .error _ => .error .value
  | none => .error .type

/-- keys and quotes can always be serialised -/
theorem key_dumps (W : WireLib) (c : Bool) (v : PyVal)
    (h : (∃ s b, v = .leaf (.pubKey s b)) ∨ (∃ p b s, v = .leaf (.quote p b s))) : (dumps W c v).isSome = true := by
  rcases h with ⟨s, b, rfl⟩ | ⟨p, b, s, rfl⟩ <;>
    simp [dumps, toJson, RtLeaf.toJson, RtLeaf.kind, RtLeaf.fields, withKind, setKey, printable, printableF, jb64]

theorem key_carried (eq : PyVal → PyVal → Bool) (v : PyVal)
    (h : (∃ s b, IsBytes b ∧ v = .leaf (.pubKey s b)) ∨ (∃ p b s, IsBytes b ∧ v = .leaf (.quote p b s))) : Carried eq v := by
  rcases h with ⟨s, b, hb, rfl⟩ | ⟨p, b, s, hb, rfl⟩ <;>
    exact ⟨by simp only [PyVal.WF, RtLeaf.WF]; exact hb, by simp [PyVal.goodFloats]⟩

/-- **C60** over the in-memory transport: both ends hold the same 32-byte key. -/
theorem tee_session_mem {L : CryptoLib} (hL : L.Ok) {W : WireLib} (hW : W.Ok) {eq : PyVal → PyVal → Bool}
    (hs : ∀ s, eq (.str s) (.str s) = true) (s t : Nat) :
    ∃ k, IsBytes k ∧ k.length = 32 ∧ teeSession L (memWire W eq) s t =
      .ok (.leaf (.symKey "hkdf-sha256" k), .leaf (.symKey "hkdf-sha256" k)) := by
  refine tee_session_agree hL _ ?_ s t
  intro v hv
  have hd : (dumps W true v).isSome = true := key_dumps W true v <| by
    rcases hv with ⟨s, b, _, rfl⟩ | ⟨p, b, s, _, rfl⟩
    · exact .inl ⟨_, _, rfl⟩
    · exact .inr ⟨_, _, _, rfl⟩
  simp only [memWire, mem_delivers hW hs true false v (key_carried eq v hv) (.inr (.inr hd))]

/-- **C60** over the HTTP envelope: both ends hold the same 32-byte key. -/
theorem tee_session_http {L : CryptoLib} (hL : L.Ok) {W : WireLib} (hW : W.Ok) {eq : PyVal → PyVal → Bool}
    (hs : ∀ s, eq (.str s) (.str s) = true) (rank : Nat) (hr : rank < 10 ^ 4300) (s t : Nat) :
    ∃ k, IsBytes k ∧ k.length = 32 ∧ teeSession L (httpWire W eq rank) s t =
      .ok (.leaf (.symKey "hkdf-sha256" k), .leaf (.symKey "hkdf-sha256" k)) := by
  refine tee_session_agree hL _ ?_ s t
  intro v hv
  have hd : (dumps W true v).isSome = true := key_dumps W true v <| by
    rcases hv with ⟨s, b, _, rfl⟩ | ⟨p, b, s, _, rfl⟩
    · exact .inl ⟨_, _, rfl⟩
    · exact .inr ⟨_, _, _, rfl⟩
  have he : ∃ m, encode W false rank false v = some m := by
    rcases h : encode W false rank false v with _ | m
    · rw [encode_fails_iff] at h
      rcases h.2 with h | h | h
      · cases h
      · cases h.1
      · rw [h.2] at hd; cases hd
    · exact ⟨m, rfl⟩
  obtain ⟨m, hm⟩ := he
  simp only [httpWire, hm, http_delivers hW hs false false rank hr v (key_carried eq v hv) m hm]

example : toyCrypto.Ok ∧ toyWire.Ok := ⟨toyCrypto_ok, toyWire_ok⟩

end Verif.Crypto
