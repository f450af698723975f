import Verif.Serde.JsonTextLemmas
/-!
# C02, C03 — every JSON number is read

The round trip only exercises the numbers python prints.  Here: every text of the JSON number grammar (RFC 8259) is read, as
an integer if it has neither fraction nor exponent and as a float otherwise.
-/
namespace Verif.Serde

/-- the grammar of RFC 8259: `int` -/
inductive IntPart : List Char → Prop
  | zero : IntPart ['0']
  | digits (c : Char) (ds : List Char) (hc : c.isDigit = true) (h0 : c ≠ '0') (hd : ∀ d ∈ ds, d.isDigit = true) : IntPart (c :: ds)

/-- RFC 8259: `[ frac ]` -/
inductive FracPart : List Char → Prop
  | none : FracPart []
  | some (d : Char) (ds : List Char) (h : ∀ x ∈ d :: ds, x.isDigit = true) : FracPart ('.' :: d :: ds)

/-- RFC 8259: `[ exp ]` -/
inductive ExpPart : List Char → Prop
  | none : ExpPart []
  | some (e : Char) (he : e = 'e' ∨ e = 'E') (s : List Char) (hs : s = [] ∨ s = ['+'] ∨ s = ['-']) (d : Char) (ds : List Char)
      (h : ∀ x ∈ d :: ds, x.isDigit = true) : ExpPart (e :: s ++ d :: ds)

/-- a text that does not continue a number -/
def Ends (r : List Char) : Prop := ∀ c r', r = c :: r' → c.isDigit = false

theorem takeWhile_ends (ds r : List Char) (hd : ∀ c ∈ ds, c.isDigit = true) (h : Ends r) :
    (ds ++ r).takeWhile Char.isDigit = ds ∧ (ds ++ r).dropWhile Char.isDigit = r := by
  induction ds with
  | nil =>
    cases r with
    | nil => simp
    | cons c r => simp [h c r rfl]
  | cons d ds ih =>
    have := ih (fun c hc => hd c (List.mem_cons_of_mem _ hc))
    simp [hd d (by simp), this]

theorem matchInt_grammar {i : List Char} (h : IntPart i) (r : List Char) (hr : Ends r) : matchInt (i ++ r) = some (i, r) := by
  cases h with
  | zero => rfl
  | digits c ds hc h0 hd =>
    have := takeWhile_ends ds r hd hr
    simp [matchInt, h0, hc, this]

theorem digit_not_sign {d : Char} (h : d.isDigit = true) : d ≠ '+' ∧ d ≠ '-' ∧ d ≠ '.' ∧ d ≠ 'e' ∧ d ≠ 'E' := by
  refine ⟨?_, ?_, ?_, ?_, ?_⟩ <;> rintro rfl <;> exact absurd h (by decide)

theorem matchFrac_grammar {f : List Char} (h : FracPart f) (r : List Char) (hr : Ends r) (hdot : ∀ r', r ≠ '.' :: r') :
    matchFrac (f ++ r) = (f, r) := by
  cases h with
  | none =>
    rw [List.nil_append]
    unfold matchFrac
    split
    · exact absurd rfl (hdot _)
    · rfl
  | some d ds h =>
    have := takeWhile_ends ds r (fun c hc => h c (List.mem_cons_of_mem _ hc)) hr
    simp [matchFrac, h d (by simp), this]

theorem matchExp_grammar {e : List Char} (h : ExpPart e) (r : List Char) (hr : Stop r) : matchExp (e ++ r) = (e, r) := by
  have hE : Ends r := by
    rintro c r' rfl
    exact (stop_head hr).1
  cases h with
  | none => exact matchExp_stop hr
  | some e he s hs d ds h =>
    have hd := h d (by simp)
    have := takeWhile_ends ds r (fun c hc => h c (List.mem_cons_of_mem _ hc)) hE
    have hsg := digit_not_sign hd
    simp only [List.cons_append, matchExp, if_pos he]
    rcases hs with rfl | rfl | rfl
    · have : matchSign (([] : List Char) ++ d :: ds ++ r) = ([], d :: (ds ++ r)) := by
        unfold matchSign
        split
        · rename_i heq; simp at heq; exact absurd heq.1 hsg.1
        · rename_i heq; simp at heq; exact absurd heq.1 hsg.2.1
        · simp
      rw [this]
      simp [hd, takeWhile_ends ds r (fun c hc => h c (List.mem_cons_of_mem _ hc)) hE]
    · simp [matchSign, hd, this]
    · simp [matchSign, hd, this]

/-- **C02, numbers** Every text `[-] int [frac] [exp]` of the JSON grammar is read up to its end: as the integer it denotes if
it has neither fraction nor exponent (and at most 4300 digits), and by `float(text)` otherwise. -/
theorem json_number_read (F : FloatText) (neg : Bool) (i f e r : List Char) (hi : IntPart i) (hf : FracPart f) (he : ExpPart e)
    (hr : Stop r) :
    parseNum F ((if neg then ['-'] else []) ++ i ++ f ++ e ++ r) =
      if f = [] ∧ e = [] then
        if i.length ≤ 4300 then some (.num (if neg then -(Nat.ofDigitChars 10 i 0 : Int) else (Nat.ofDigitChars 10 i 0 : Int)), r)
        else none
      else some (.flt (F.parse ((if neg then ['-'] else []) ++ i ++ f ++ e)), r) := by
  have hEr : Ends r := by
    rintro c r' rfl
    exact (stop_head hr).1
  have hEe : Ends (e ++ r) := by
    cases he with
    | none => exact hEr
    | some c hc s hs d ds h =>
      rintro c' r' heq
      simp only [List.cons_append, List.cons.injEq] at heq
      rcases hc with rfl | rfl <;> (rw [← heq.1]; decide)
  have hdot : ∀ r', e ++ r ≠ '.' :: r' := by
    intro r' heq
    cases he with
    | none =>
      rw [List.nil_append] at heq
      rw [heq] at hr
      exact (stop_head hr).2.1 rfl
    | some c hc s hs d ds h =>
      simp only [List.cons_append, List.cons.injEq] at heq
      rcases hc with rfl | rfl <;> exact absurd heq.1 (by decide)
  have hEf : Ends (f ++ (e ++ r)) := by
    cases hf with
    | none => exact hEe
    | some d ds h =>
      rintro c' r' heq
      simp only [List.cons_append, List.cons.injEq] at heq
      rw [← heq.1]; decide
  have hneg : splitNeg ((if neg then ['-'] else []) ++ i ++ f ++ e ++ r) = (neg, i ++ (f ++ (e ++ r))) := by
    have hi0 : ∃ c cs, i = c :: cs ∧ c ≠ '-' := by
      cases hi with
      | zero => exact ⟨_, _, rfl, by decide⟩
      | digits c ds hc h0 hd => exact ⟨c, ds, rfl, (digit_not_sign hc).2.1⟩
    obtain ⟨c, cs, rfl, hc⟩ := hi0
    cases neg
    · simp [splitNeg, hc]
    · simp [splitNeg]
  have hm : matchNumber ((if neg then ['-'] else []) ++ i ++ f ++ e ++ r) = some (neg, i, f ++ e, r) := by
    simp only [matchNumber, hneg, matchInt_grammar hi _ hEf, matchFrac_grammar hf _ hEe hdot, matchExp_grammar he r hr]
  rw [parseNum, hm]
  simp only [List.append_eq_nil_iff, List.append_assoc]
  by_cases hc : f = [] ∧ e = []
  · rw [if_pos hc, if_pos hc]
    by_cases hl : i.length ≤ 4300
    · rw [if_pos hl, if_pos (show i.length ≤ maxDigits from hl)]
    · rw [if_neg hl, if_neg (show ¬ i.length ≤ maxDigits from hl)]
  · rw [if_neg hc, if_neg hc]

/-- numbers python does not print but other writers do: `1E5`, `1e-07`, `-0.50`, `2e+3` -/
example : IntPart ['1'] ∧ ExpPart ['E', '5'] ∧ ExpPart ['e', '-', '0', '7'] ∧ ExpPart ['e', '+', '3'] ∧ FracPart ['.', '5', '0'] :=
  ⟨.digits '1' [] (by decide) (by decide) (by simp), .some 'E' (.inr rfl) [] (.inl rfl) '5' [] (by decide),
    .some 'e' (.inl rfl) ['-'] (.inr (.inr rfl)) '0' ['7'] (by decide), .some 'e' (.inl rfl) ['+'] (.inr (.inl rfl)) '3' [] (by decide),
    .some '5' ['0'] (by decide)⟩

end Verif.Serde
