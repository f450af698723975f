import Verif.Serde.WireProps
import Verif.Comm.Scope
/-!
# One message between workers (backends/simp_worker/http.py, mem.py): property C72

What a value goes through between `send` on one worker and the mailbox of the other: encoding into an HTTP request (binary or
legacy JSON envelope), decoding by `PUT /comm/{key}`, or the optional serialisation round trip of the in-memory communicator.
Values are `Verif.Serde.PyVal`, the text and byte formats are those of `Verif/Serde/Wire.lean`.
-/
namespace Verif.Comm.Http
open Verif.Serde

/-- A request as the server sees it.  Header values are strings; absent headers are `none`. -/
inductive Msg where
  /-- `Content-Type: application/octet-stream` -/
  | binary (fromRank isRaw format : Option String) (body : List Nat)
  /-- any other content type: JSON envelope -/
  | json (body : List Nat)

/-- `str(rank)` -/
def rankText (rank : Nat) : String := String.ofList (Nat.toDigits 10 rank)

/-- the fields of the legacy envelope (http.py:455-463) -/
def envelope (payload : String) (rank : Nat) (raw : Bool) : Json :=
  .obj [("data", .str payload), ("from_rank", .num rank), ("is_raw_bytes", .bool raw)]

/-- `send_raw_bytes = is_raw_bytes or isinstance(data, bytes)` (http.py:395) and the payload encoding (http.py:407-424,
436-463).  `none` = the serialiser raises, or the caller claims raw bytes for something that is not bytes.  httpx writes the
envelope with its own separators; the model writes it like `serde.dumps` (same JSON value). -/
def encode (W : WireLib) (useBinary : Bool) (rank : Nat) (isRaw : Bool) (data : PyVal) : Option Msg :=
  if useBinary then
    match data with
    | .bytes b => some (.binary (some (rankText rank)) (some "1") (some "raw-bytes") b)
    | v =>
      if isRaw then none
      else (dumpsBin W v).map fun b => .binary (some (rankText rank)) (some "0") (some "binary-container") b
  else
    match data with
    | .bytes b => some (.json (jsonBytes W (envelope (String.ofList (b64enc b)) rank true)))
    | v =>
      if isRaw then none
      else (dumpsB64 W true v).map fun p => .json (jsonBytes W (envelope p rank false))

/-- why a request is refused -/
inductive Reject where
  /-- 400: `X-From-Rank` missing or not an integer -/
  | rank
  /-- 400: unsupported `X-Serde-Format` -/
  | format
  /-- 400 / 422: the body is not JSON or not a `CommRequest` -/
  | envelope
  /-- 400 / 500: the payload does not decode -/
  | payload
  deriving DecidableEq, Repr

/-- `int(raw_from_rank)` (http.py:795-801).  Simplification: only plain decimal digits; `int` also accepts signs, spaces and
underscores. -/
def parseRank (s : String) : Option Nat :=
  if s.toList ≠ [] ∧ s.toList.all Char.isDigit then some (Nat.ofDigitChars 10 s.toList 0) else none

/-- `_decode_binary_payload` (http.py:598-614) -/
def decodeBinary (W : WireLib) (eq : PyVal → PyVal → Bool) (body : List Nat) (raw : Bool) (format : Option String) :
    Except Reject PyVal :=
  if raw then .ok (.bytes body)
  else if format = some "binary-container" ∨ format = none then
    match loadsBin W eq body with
    | some v => .ok v
    | none => .error .payload
  else .error .format

/-- the `CommRequest` model (http.py:585-591): `data: str`, `from_rank: int`, `is_raw_bytes: bool = False`.  Simplification:
pydantic's lax conversions (`"3"`, `3.0`) are refused here. -/
def parseEnvelope (j : Json) : Option (String × Nat × Bool) :=
  match j with
  | .obj fs =>
    match lookup "data" fs, lookup "from_rank" fs, lookup "is_raw_bytes" fs with
    | some (.str d), some (.num r), some (.bool b) => if 0 ≤ r then some (d, r.toNat, b) else none
    | some (.str d), some (.num r), none => if 0 ≤ r then some (d, r.toNat, false) else none
    | _, _, _ => none
  | _ => none

/-- `receive_comm` up to `comm.on_receive` (http.py:782-838): sender rank and value, or the refusal -/
def decode (W : WireLib) (eq : PyVal → PyVal → Bool) : Msg → Except Reject (Nat × PyVal)
  | .binary fr isRaw format body =>
    match fr with
    | none => .error .rank
    | some t =>
      match parseRank t with
      | none => .error .rank
      | some r =>
        match decodeBinary W eq body (isRaw.getD "0" == "1") format with
        | .ok v => .ok (r, v)
        | .error e => .error e
  | .json body =>
    match bytesJson W body with
    | none => .error .envelope
    | some j =>
      match parseEnvelope j with
      | none => .error .envelope
      | some x =>
        if x.2.2 then
          match b64dec x.1.toList with
          | some b => .ok (x.2.1, .bytes b)
          | none => .error .payload
        else
          match loadsB64 W eq true x.1 with
          | some v => .ok (x.2.1, v)
          | none => .error .payload

/-- `ThreadCommunicator.send` (mem.py:60-88): what the peer's mailbox receives -/
def memDeliver (W : WireLib) (eq : PyVal → PyVal → Bool) (useSerde isRaw : Bool) (v : PyVal) : Option PyVal :=
  if useSerde && !isRaw then
    match dumps W true v with
    | none => none
    | some d => loads W eq true d
  else some v

theorem parseRank_text (rank : Nat) : parseRank (rankText rank) = some rank := by
  unfold parseRank rankText
  rw [String.toList_ofList, if_pos, Nat.ofDigitChars_toDigits (by decide) (by decide)]
  refine ⟨?_, ?_⟩
  · obtain ⟨c, ds, e, _⟩ := toDigits_head rank
    rw [e]; simp
  · rw [List.all_eq_true]
    exact fun d hd => Nat.isDigit_of_mem_toDigits (by decide) (by decide) hd

theorem envelope_roundtrip {W : WireLib} (hW : W.Ok) (p : String) (rank : Nat) (hr : rank < 10 ^ 4300) (raw : Bool) :
    bytesJson W (jsonBytes W (envelope p rank raw)) = some (envelope p rank raw) := by
  refine bytesJson_jsonBytes hW _ ?_ ?_
  · simp [envelope, Clean, cleanF]
  · rw [printable_iff]
    simp only [envelope, Printable, printableFields, maxDigits, Int.natAbs_natCast, true_and, and_true]
    exact hr

theorem parse_envelope (p : String) (rank : Nat) (raw : Bool) :
    parseEnvelope (envelope p rank raw) = some (p, rank, raw) := by
  simp [parseEnvelope, envelope, lookup]

/-- the values the transports are asked to carry: what python can hold, with python's own NaN -/
def Carried (eq : PyVal → PyVal → Bool) (v : PyVal) : Prop := v.WF eq ∧ v.goodFloats

/-- **C72**: whatever a worker sends, in either transport mode and with or without the raw-bytes flag, the receiving worker
hands to its mailbox the same value, from the sender's rank. -/
theorem http_delivers {W : WireLib} (hW : W.Ok) {eq : PyVal → PyVal → Bool} (hs : ∀ s, eq (.str s) (.str s) = true)
    (useBinary isRaw : Bool) (rank : Nat) (hr : rank < 10 ^ 4300) (v : PyVal) (hv : Carried eq v) (m : Msg)
    (h : encode W useBinary rank isRaw v = some m) : decode W eq m = .ok (rank, v) := by
  have raw : (∃ b, v = .bytes b) ∨ ∀ b, v ≠ .bytes b := by
    cases v <;> simp
  rcases raw with ⟨b, rfl⟩ | hnb
  · have hb : ∀ x ∈ b, x < 256 := by simpa [PyVal.WF] using hv.1
    cases useBinary
    · simp only [encode, Bool.false_eq_true, if_false, Option.some.injEq] at h
      subst h
      simp [decode, envelope_roundtrip hW _ _ hr, parse_envelope, b64dec_enc b hb]
    · simp only [encode, if_true, Option.some.injEq] at h
      subst h
      simp [decode, parseRank_text, decodeBinary]
  · have e1 : ∀ ub, encode W ub rank isRaw v = if ub then (if isRaw then none
        else (dumpsBin W v).map fun b => .binary (some (rankText rank)) (some "0") (some "binary-container") b)
        else (if isRaw then none else (dumpsB64 W true v).map fun p => .json (jsonBytes W (envelope p rank false))) := by
      intro ub
      unfold encode
      cases v <;> first | rfl | exact absurd rfl (hnb _)
    rw [e1] at h
    cases useBinary
    · cases isRaw
      · simp only [Bool.false_eq_true, if_false, Option.map_eq_some_iff] at h
        obtain ⟨p, hp, rfl⟩ := h
        simp [decode, envelope_roundtrip hW _ _ hr, parse_envelope, dumpsB64_loads hW hs v hv.1 hv.2 true p hp]
      · simp at h
    · cases isRaw
      · simp only [Bool.false_eq_true, if_false, if_true, Option.map_eq_some_iff] at h
        obtain ⟨p, hp, rfl⟩ := h
        simp [decode, parseRank_text, decodeBinary, dumpsBin_loads hW hs v hv.1 hv.2 p hp]
      · simp at h

/-- **C72**: sending fails at the sender exactly when the value cannot be serialised or is wrongly flagged as raw bytes;
bytes are always sent. -/
theorem encode_fails_iff (W : WireLib) (useBinary isRaw : Bool) (rank : Nat) (v : PyVal) :
    encode W useBinary rank isRaw v = none ↔
      (∀ b, v ≠ .bytes b) ∧ (isRaw = true ∨ (useBinary = true ∧ dumpsBin W v = none) ∨
        (useBinary = false ∧ dumps W true v = none)) := by
  cases v <;> cases useBinary <;> cases isRaw <;> simp [encode, dumpsB64]

/-- **C72**: the in-memory communicator hands over the same value, with and without serialisation. -/
theorem mem_delivers {W : WireLib} (hW : W.Ok) {eq : PyVal → PyVal → Bool} (hs : ∀ s, eq (.str s) (.str s) = true)
    (useSerde isRaw : Bool) (v : PyVal) (hv : Carried eq v) (hd : useSerde = false ∨ isRaw = true ∨ (dumps W true v).isSome) :
    memDeliver W eq useSerde isRaw v = some v := by
  unfold memDeliver
  cases useSerde <;> cases isRaw <;> simp
  simp only [Bool.true_eq_false, Bool.false_eq_true, false_or] at hd
  obtain ⟨d, h⟩ := Option.isSome_iff_exists.mp hd
  rw [h]
  exact dumps_loads hW hs v hv.1 hv.2 true d h

/-- **C72**: the two communicators deliver the same value. -/
theorem transports_agree {W : WireLib} (hW : W.Ok) {eq : PyVal → PyVal → Bool} (hs : ∀ s, eq (.str s) (.str s) = true)
    (rank : Nat) (hr : rank < 10 ^ 4300) (v : PyVal) (hv : Carried eq v) (m m' : Msg)
    (h : encode W true rank false v = some m) (h' : encode W false rank false v = some m') :
    decode W eq m = decode W eq m' := by
  rw [http_delivers hW hs _ _ rank hr v hv m h, http_delivers hW hs _ _ rank hr v hv m' h']

/-- **C72**: an unknown serialisation format, or a missing or non-numeric sender rank, is refused; nothing is delivered. -/
theorem bad_headers_rejected (W : WireLib) (eq : PyVal → PyVal → Bool) (fr isRaw format : Option String) (body : List Nat)
    (h : fr = none ∨ (∃ t, fr = some t ∧ parseRank t = none) ∨
      (isRaw ≠ some "1" ∧ ∃ f, format = some f ∧ f ≠ "binary-container")) :
    ∃ e, decode W eq (.binary fr isRaw format body) = .error e := by
  rcases h with rfl | ⟨t, rfl, ht⟩ | ⟨hi, f, rfl, hf⟩
  · exact ⟨_, rfl⟩
  · exact ⟨.rank, by simp [decode, ht]⟩
  · cases fr with
    | none => exact ⟨_, rfl⟩
    | some t =>
      cases ht : parseRank t with
      | none => exact ⟨.rank, by simp [decode, ht]⟩
      | some r =>
        refine ⟨.format, ?_⟩
        have : (isRaw.getD "0" == "1") = false := by
          cases isRaw with
          | none => decide
          | some x => simpa using hi
        simp [decode, ht, decodeBinary, this, hf]

/-- **C72**: a binary message cut short in transit is refused, unless it is raw bytes (which carry no length). -/
theorem truncated_rejected {W : WireLib} (hW : W.Ok) {eq : PyVal → PyVal → Bool} (hs : ∀ s, eq (.str s) (.str s) = true)
    (rank : Nat) (v : PyVal) (hv : Carried eq v) (fr isRaw format : Option String) (body : List Nat)
    (hnb : ∀ b, v ≠ .bytes b) (h : encode W true rank false v = some (.binary fr isRaw format body)) (k : Nat)
    (hk : k < body.length) : ∃ e, decode W eq (.binary fr isRaw format (body.take k)) = .error e := by
  have e1 : encode W true rank false v =
      (dumpsBin W v).map fun b => .binary (some (rankText rank)) (some "0") (some "binary-container") b := by
    cases v <;> first | exact absurd (by rfl) (hnb _) | simp only [encode, if_true, Bool.false_eq_true, if_false]
  rw [e1, Option.map_eq_some_iff] at h
  obtain ⟨d, hd, he⟩ := h
  cases he
  refine ⟨.payload, ?_⟩
  simp [decode, parseRank_text, decodeBinary, dumpsBin_truncation_rejected hW hs v hv.1 hv.2 body hd k hk]

/-- raw bytes cut short are delivered as if complete: their message has no length field -/
theorem truncated_raw_violated : ∃ (W : WireLib) (b : List Nat) (m : Msg), encode W true 0 true (.bytes b) = some m ∧
    ∃ fr ir fm body, m = .binary fr ir fm body ∧
      decode W (fun _ _ => false) (.binary fr ir fm (body.take 1)) = .ok (0, .bytes [1]) ∧ b = [1, 2] := by
  refine ⟨toyWire, [1, 2], _, rfl, _, _, _, _, rfl, ?_, rfl⟩
  simp [decode, parseRank_text, decodeBinary]

example : Carried (fun a b => a.asStr? == b.asStr?) wireVal := by
  refine ⟨?_, ?_⟩
  · simp [wireVal, PyVal.WF, WFPairs, WFList, PyVal.asStr?]
  · simp [wireVal, PyVal.goodFloats, goodFloatsP, goodFloatsL, GoodFloat]

example : (encode toyWire true 3 false wireVal).isSome = true ∧ (encode toyWire false 3 false wireVal).isSome = true ∧
    (encode toyWire false 3 false (.bytes [1, 2, 255])).isSome = true := by decide +kernel

/-! ## The key in the URL

`url = f"{self.endpoints[to]}/comm/{key}"` (http.py:387) and the route `/comm/{key}` (http.py:767): a path segment.  A `/` in
the key does not match the route, `?` and `#` end the path, `%` starts an escape, and `.` and `..` are dot segments. -/

/-- the characters of a key that survive as one path segment unchanged -/
def urlSafe (key : String) : Prop :=
  key ≠ "" ∧ key ≠ "." ∧ key ≠ ".." ∧ ∀ c ∈ key.toList, c ≠ '/' ∧ c ≠ '?' ∧ c ≠ '#' ∧ c ≠ '%'

/-- no character that ends or escapes a path segment -/
def plainChars (s : String) : Prop := ∀ c ∈ s.toList, c ≠ '/' ∧ c ≠ '?' ∧ c ≠ '#' ∧ c ≠ '%'

theorem digit_plain (n : Nat) : plainChars n.repr := by
  intro c hc
  have hd : c.isDigit = true := by
    simp only [Nat.repr, String.toList_ofList] at hc
    exact Nat.isDigit_of_mem_toDigits (by decide) (by decide) hc
  refine ⟨?_, ?_, ?_, ?_⟩ <;> (rintro rfl; exact absurd hd (by decide))

theorem plain_append {a b : String} (ha : plainChars a) (hb : plainChars b) : plainChars (a ++ b) := by
  intro c hc
  rw [String.toList_append, List.mem_append] at hc
  exact hc.elim (ha c) (hb c)

theorem pathId_plain (root : String) (hroot : plainChars root) (p : List (Nat × Option String))
    (hp : ∀ n s, (n, some s) ∈ p → plainChars s) : plainChars (pathId root p) := by
  have hdot : plainChars "." := by intro c hc; simp at hc; subst hc; decide
  induction p generalizing root with
  | nil => exact hroot
  | cons x p ih =>
    obtain ⟨n, s⟩ := x
    rw [pathId]
    refine ih _ ?_ fun m t ht => hp m t (by simp [ht])
    cases s with
    | none => exact plain_append (plain_append hroot hdot) (digit_plain n)
    | some s =>
      exact plain_append (plain_append (plain_append (plain_append hroot hdot) (digit_plain n)) hdot) (hp n s (by simp))

/-- **C72**: the key of every message of a job arrives as it was sent, when the job id and the scope suffixes contain none of
`/ ? # %`.  (Suffixes are hexadecimal graph keys and operation numbers; job ids are given by the caller.) -/
theorem key_survives_url (root : String) (hroot : plainChars root) (p : List (Nat × Option String))
    (hp : ∀ n s, (n, some s) ∈ p → plainChars s) (seq : Nat) : urlSafe (msgKey (pathId root p) seq) := by
  have hc : plainChars (msgKey (pathId root p) seq) := by
    have hcolon : plainChars ":" := by intro c hc; simp at hc; subst hc; decide
    exact plain_append (plain_append (pathId_plain root hroot p hp) hcolon) (digit_plain seq)
  have hmem : ':' ∈ (msgKey (pathId root p) seq).toList := by simp [msgKey]
  refine ⟨?_, ?_, ?_, hc⟩ <;> (intro e; rw [e] at hmem; simp at hmem)

example : urlSafe (msgKey (pathId "3f2a-77" [(0, some "ab12.7"), (2, none)]) 5) :=
  key_survives_url _ (by unfold plainChars; decide +kernel) _
    (by
      intro n s h
      simp at h
      obtain ⟨_, rfl⟩ := h
      unfold plainChars
      decide +kernel) 5

end Verif.Comm.Http
