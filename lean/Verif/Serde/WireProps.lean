import Verif.Serde.Wire
import Verif.Serde.Accept
/-! # The wire formats: decoding arbitrary bytes, examples, limits -/
namespace Verif.Serde
open Verif.Tool Verif.Crypto

/-! ## Everything `json.loads` returns has distinct keys -/

theorem putField_mem {k : String} {v : Json} {d : List (String × Json)} {x : String}
    (h : x ∈ (putField k v d).map Prod.fst) : x = k ∨ x ∈ d.map Prod.fst := by
  induction d with
  | nil => simp [putField] at h; exact .inl h
  | cons p d ih =>
    obtain ⟨k', v'⟩ := p
    simp only [putField] at h
    split at h
    · simp only [List.map_cons, List.mem_cons] at h ⊢
      rcases h with h | h
      · exact .inl h
      · exact .inr (.inr h)
    · simp only [List.map_cons, List.mem_cons] at h ⊢
      rcases h with h | h
      · exact .inr (.inl h)
      · rcases ih h with h | h
        · exact .inl h
        · exact .inr (.inr h)

theorem putField_nodup {k : String} {v : Json} {d : List (String × Json)} (h : (d.map Prod.fst).Nodup) :
    ((putField k v d).map Prod.fst).Nodup := by
  induction d with
  | nil => simp [putField]
  | cons p d ih =>
    obtain ⟨k', v'⟩ := p
    simp only [List.map_cons, List.nodup_cons] at h
    simp only [putField]
    split
    · rename_i e
      subst e
      simpa using h
    · rename_i e
      simp only [List.map_cons, List.nodup_cons]
      refine ⟨fun hm => ?_, ih h.2⟩
      rcases putField_mem hm with h' | h'
      · exact e h'
      · exact h.1 h'

theorem putField_distinct {k : String} {v : Json} {d : List (String × Json)} (h : distinctFields d) (hv : DistinctKeys v) :
    distinctFields (putField k v d) := by
  induction d with
  | nil => exact ⟨hv, trivial⟩
  | cons p d ih =>
    obtain ⟨k', v'⟩ := p
    simp only [distinctFields] at h
    simp only [putField]
    split
    · exact ⟨hv, h.2⟩
    · exact ⟨h.1, ih h.2⟩

theorem mkDict_ok (ps : List (String × Json)) (h : distinctFields ps) :
    ((mkDict ps).map Prod.fst).Nodup ∧ distinctFields (mkDict ps) := by
  have key : ∀ (ps d : List (String × Json)), distinctFields ps → (d.map Prod.fst).Nodup → distinctFields d →
      ((ps.foldl (fun d p => putField p.1 p.2 d) d).map Prod.fst).Nodup ∧
      distinctFields (ps.foldl (fun d p => putField p.1 p.2 d) d) := by
    intro ps
    induction ps with
    | nil => intro d _ h1 h2; exact ⟨h1, h2⟩
    | cons p ps ih =>
      intro d h h1 h2
      obtain ⟨k, x⟩ := p
      simp only [distinctFields] at h
      exact ih _ h.2 (putField_nodup h1) (putField_distinct h2 h.1)
  exact key ps [] h (by simp) trivial

theorem parseScalar_distinct {F : FloatText} {cs r : List Char} {j : Json} (h : parseScalar F cs = some (j, r)) :
    DistinctKeys j := by
  unfold parseScalar at h
  split at h
  · rename_i x hx
    obtain ⟨l, hl, e⟩ := List.exists_of_findSome?_eq_some hx
    cases h
    simp only [Option.map_eq_some_iff, Prod.mk.injEq] at e
    obtain ⟨_, _, e, _⟩ := e
    rw [← e]
    simp only [literals, List.mem_cons, List.not_mem_nil, or_false] at hl
    rcases hl with rfl | rfl | rfl | rfl | rfl | rfl <;> simp [DistinctKeys]
  · unfold parseNum at h
    split at h
    · cases h
    · split at h
      · split at h
        · cases h; simp [DistinctKeys]
        · cases h
      · cases h; simp [DistinctKeys]

theorem parse_distinct (F : FloatText) (n : Nat) :
    (∀ cs j r, parseVal F n cs = some (j, r) → DistinctKeys j) ∧
    (∀ cs xs r, parseItems F n cs = some (xs, r) → distinctList xs) ∧
    (∀ cs fs r, parseFields F n cs = some (fs, r) → distinctFields fs) := by
  induction n with
  | zero => refine ⟨?_, ?_, ?_⟩ <;> (intro cs x r h; simp [parseVal, parseItems, parseFields] at h)
  | succ n ih =>
    obtain ⟨ih1, ih2, ih3⟩ := ih
    refine ⟨?_, ?_, ?_⟩
    · intro cs j r h
      rw [parseVal.eq_def] at h
      simp only at h
      split at h
      · split at h
        · cases h; simp [DistinctKeys]
        · cases h
      · split at h
        · cases h; simp [DistinctKeys, distinctList]
        · split at h
          · rename_i hp; cases h; simpa [DistinctKeys] using ih2 _ _ _ hp
          · cases h
      · split at h
        · cases h; simp [DistinctKeys, distinctFields]
        · split at h
          · rename_i hp; cases h; simpa [DistinctKeys] using mkDict_ok _ (ih3 _ _ _ hp)
          · cases h
      · exact parseScalar_distinct h
    · intro cs xs r h
      rw [parseItems.eq_def] at h
      simp only at h
      split at h
      · cases h
      · rename_i x q hx
        split at h
        · cases h; exact ⟨ih1 _ _ _ hx, trivial⟩
        · split at h
          · rename_i hp; cases h; exact ⟨ih1 _ _ _ hx, ih2 _ _ _ hp⟩
          · cases h
        · cases h
    · intro cs fs r h
      rw [parseFields.eq_def] at h
      simp only at h
      split at h
      · split at h
        · cases h
        · split at h
          · split at h
            · cases h
            · rename_i x q hx
              split at h
              · cases h; exact ⟨ih1 _ _ _ hx, trivial⟩
              · split at h
                · rename_i hp; cases h; exact ⟨ih1 _ _ _ hx, ih3 _ _ _ hp⟩
                · cases h
              · cases h
          · cases h
      · cases h

/-- Whatever text `json.loads` accepts, the result has distinct keys in every dict. -/
theorem jsonLoads_distinct {F : FloatText} {cs : List Char} {j : Json} (h : jsonLoads F cs = some j) : DistinctKeys j := by
  unfold jsonLoads at h
  split at h
  · rename_i hp
    split at h
    · cases h; exact (parse_distinct F _).1 _ _ _ hp
    · cases h
  · cases h

/-- **C69** from raw bytes: any byte string that decodes to a type object gives a type all of whose constructor
requirements hold (`Sound`), with no assumption on the bytes. -/
theorem type_from_any_bytes_sound (L : WireLib) (d : List Nat) (j : Json) (h : bytesJson L d = some j) (t : Ty)
    (ht : tyFromJson j = some t) : Sound t := by
  unfold bytesJson at h
  split at h
  · exact type_from_any_json_sound j (jsonLoads_distinct h) t ht
  · cases h

/-! ## Concrete instances -/

/-- a float text satisfying the contract: the bit pattern in decimal followed by `.0` -/
def toyFloat : FloatText where
  fmt b := Nat.toDigits 10 b ++ ['.', '0']
  parse cs := Nat.ofDigitChars 10 (cs.takeWhile Char.isDigit) 0

theorem toyFloat_match (b : Nat) : matchNumber (toyFloat.fmt b) = some (false, Nat.toDigits 10 b, ['.', '0'], []) := by
  obtain ⟨c, ds, e, h0, hc, hds⟩ := toDigits_head b
  have hneg : c ≠ '-' := by rintro rfl; exact absurd hc (by decide)
  have htw : ∀ l : List Char, (∀ d ∈ l, d.isDigit = true) → (l ++ ['.', '0']).takeWhile Char.isDigit = l ∧
      (l ++ ['.', '0']).dropWhile Char.isDigit = ['.', '0'] := by
    intro l
    induction l with
    | nil => intro _; decide
    | cons a l ih =>
      intro h
      have := ih fun d hd => h d (by simp [hd])
      simp [h a (by simp), this.1, this.2]
  have hi : matchInt (Nat.toDigits 10 b ++ ['.', '0']) = some (Nat.toDigits 10 b, ['.', '0']) := by
    rw [e]
    simp only [List.cons_append, matchInt]
    by_cases hz : c = '0'
    · simp [hz, h0 hz]
    · rw [if_neg hz, if_pos hc, (htw ds hds).1, (htw ds hds).2]
  have hs : splitNeg (Nat.toDigits 10 b ++ ['.', '0']) = (false, Nat.toDigits 10 b ++ ['.', '0']) := by
    rw [e]; simp [splitNeg, hneg]
  simp only [toyFloat, matchNumber, hs, hi]
  rfl

theorem toyFloat_ok : toyFloat.Ok where
  fmt_number b _ _ := ⟨false, _, _, by simp, toyFloat_match b⟩
  parse_fmt b _ _ := by
    have h : ((Nat.toDigits 10 b ++ ['.', '0']).takeWhile Char.isDigit) = Nat.toDigits 10 b := by
      have : ∀ l : List Char, (∀ d ∈ l, d.isDigit = true) → (l ++ ['.', '0']).takeWhile Char.isDigit = l := by
        intro l
        induction l with
        | nil => intro _; decide
        | cons a l ih => intro h; simp [h a (by simp), ih fun d hd => h d (by simp [hd])]
      exact this _ fun d hd => Nat.isDigit_of_mem_toDigits (by decide) (by decide) hd
    simp only [toyFloat, h]
    exact Nat.ofDigitChars_toDigits (by decide) (by decide)

/-- a wire library satisfying the contract (no compression) -/
def toyWire : WireLib := ⟨toyFloat, id, some⟩

theorem toyWire_ok : toyWire.Ok := ⟨toyFloat_ok, fun _ _ => rfl, fun _ h => h⟩

/-- the printed text is python's: escapes, a surrogate pair, nesting, negative ints -/
example : jsonText toyFloat (.obj [("a\"\n", .arr [.num (-12), .null, .bool true]), ("é😀", .obj []), ("x", .arr [])])
    = "{\"a\\\"\\n\":[-12,null,true],\"\\u00e9\\ud83d\\ude00\":{},\"x\":[]}".toList := by decide +kernel

/-- the parser accepts whitespace and any escape, and keeps the last of two equal keys at the first place -/
example : (jsonLoads toyFloat " { \"k\" : [ 1 , -0 ] , \"\\u006b\" : \"\\/\" , \"z\":-Infinity} ".toList).map (jsonText toyFloat) =
    some "{\"k\":\"/\",\"z\":-Infinity}".toList := by decide +kernel

/-- the parser rejects leading zeros, trailing commas, raw control characters, trailing data and bad escapes -/
example : (["01", "[1,]", "\"\n\"", "1 2", "\"\\x\"", "{\"a\" 1}", "tru", "\"\\ud800\"", ""].map
    fun s => (jsonLoads toyFloat s.toList).isNone) = List.replicate 9 true := by decide +kernel

/-- the value of the examples: nested containers, both dict forms, bytes, a float, a negative int -/
def wireVal : PyVal :=
  .dict [(.str "k\"", .tuple [.int (-5), .float 4611686018427387904, .none]), (.str "é", .dict [(.int 1, .bytes [0, 255])]),
    (.str "t", .tensor "uint8" [2] [7, 8])]

/-- the hypotheses of the wire round trips are met, compressed or not -/
example : (dumps toyWire true wireVal).isSome = true ∧ (dumps toyWire false wireVal).isSome = true ∧
    (dumpsB64 toyWire true wireVal).isSome = true ∧ (dumpsBin toyWire wireVal).isSome = true := by decide +kernel

example : wireVal.goodFloats ∧ wireVal.WF (fun a b => a.asStr? == b.asStr?) ∧
    ∀ s, (fun a b : PyVal => a.asStr? == b.asStr?) (.str s) (.str s) = true := by
  refine ⟨?_, ?_, ?_⟩
  · simp [wireVal, PyVal.goodFloats, goodFloatsP, goodFloatsL, GoodFloat]
  · simp [wireVal, PyVal.WF, WFPairs, WFList, PyVal.asStr?]
  · intro s; simp

/-- **C02 violated** for the bits of a NaN: a NaN other than `float('nan')` comes back with other bits (JSON writes every NaN
as `NaN`), for every library. -/
theorem nan_bits_violated (L : WireLib) : ∃ b, b < 2 ^ 64 ∧
    bytesJson L (jsonBytes L (.flt b)) = some (.flt nanBits) ∧ b ≠ nanBits := by
  refine ⟨0x7ff8000000000001, by decide, ?_, by decide⟩
  simp only [bytesJson, jsonBytes, utf8_roundtrip, String.toList_ofList, jsonText, floatText]
  rw [if_pos (by decide), if_pos (by decide)]
  have h := parseVal_lit L.F (2 * ['N', 'a', 'N'].length + 1) ['N', 'a', 'N'] (.flt nanBits) [] (by simp [literals])
  unfold jsonLoads
  rw [show skipWs ['N', 'a', 'N'] = ['N', 'a', 'N'] ++ [] from by decide, h]
  rfl

/-- **C02 violated**: an int of more than 4300 digits cannot be serialised at all. -/
theorem huge_int_violated (L : WireLib) (c : Bool) : dumps L c (.int (10 ^ 4300)) = none := by
  rw [dumps_fails_iff]
  refine .inr ⟨_, rfl, ?_⟩
  simp only [Printable, printableFields, maxDigits, not_and, true_and]
  intro h
  exact absurd h (by decide +kernel)

end Verif.Serde
