import Verif.Serde.JsonTextLemmas
/-! # The JSON text codec is lossless -/
namespace Verif.Serde
open Verif.Tool

/-- What CPython promises about finite floats: the text is a JSON number with a fraction or an exponent, and
`float(repr(x)) == x`. -/
structure FloatText.Ok (F : FloatText) : Prop where
  fmt_number : ∀ b, b < 2 ^ 64 → b / 2 ^ 52 % 2048 ≠ 2047 →
    ∃ neg ds fe, fe ≠ [] ∧ matchNumber (F.fmt b) = some (neg, ds, fe, [])
  parse_fmt : ∀ b, b < 2 ^ 64 → b / 2 ^ 52 % 2048 ≠ 2047 → F.parse (F.fmt b) = b

/-- A float JSON can carry: 64 bits, and if it is a NaN then python's own `float('nan')`. -/
def GoodFloat (b : Nat) : Prop :=
  b < 2 ^ 64 ∧ (b / 2 ^ 52 % 2048 = 2047 → b % 2 ^ 52 ≠ 0 → b = nanBits)

mutual
/-- every float of the tree is a `GoodFloat` -/
def FloatsOk : Json → Prop
  | .flt b => GoodFloat b
  | .arr xs => floatsOkList xs
  | .obj fs => floatsOkFields fs
  | _ => True
/-- see `FloatsOk` -/
def floatsOkList : List Json → Prop
  | [] => True
  | x :: xs => FloatsOk x ∧ floatsOkList xs
/-- see `FloatsOk` -/
def floatsOkFields : List (String × Json) → Prop
  | [] => True
  | (_, x) :: xs => FloatsOk x ∧ floatsOkFields xs
end

/-! ## Heads of printed values -/

/-- first characters of a JSON value -/
def headOk (c : Char) : Bool :=
  c.isDigit || c == '-' || c == '"' || c == '[' || c == '{' || c == 'n' || c == 't' || c == 'f' || c == 'N' || c == 'I'

theorem headOk_ne {c : Char} (h : headOk c = true) : c ≠ ']' ∧ c ≠ '}' ∧ isWs c = false := by
  refine ⟨?_, ?_, ?_⟩
  · rintro rfl; revert h; decide
  · rintro rfl; revert h; decide
  · cases hw : isWs c with
    | false => rfl
    | true =>
      simp only [isWs, Bool.or_eq_true, beq_iff_eq] at hw
      rcases hw with ((rfl | rfl) | rfl) | rfl <;> (revert h; decide)

theorem intText_head (n : Int) : ∃ c cs, intText n = c :: cs ∧ (c.isDigit = true ∨
    (c = '-' ∧ ∃ d ds, cs = d :: ds ∧ d.isDigit = true)) := by
  cases n with
  | ofNat n =>
    obtain ⟨c, ds, e, _, hc, _⟩ := toDigits_head n
    exact ⟨c, ds, e, .inl hc⟩
  | negSucc n =>
    obtain ⟨c, ds, e, _, hc, _⟩ := toDigits_head (n + 1)
    exact ⟨'-', c :: ds, by simp [intText, e], .inr ⟨rfl, c, ds, rfl, hc⟩⟩

theorem matchInt_head {cs ds r : List Char} (h : matchInt cs = some (ds, r)) :
    ∃ d ds', cs = d :: ds' ∧ d.isDigit = true := by
  cases cs with
  | nil => simp [matchInt] at h
  | cons c cs =>
    refine ⟨c, cs, rfl, ?_⟩
    simp only [matchInt] at h
    split at h
    · rename_i hc; subst hc; rfl
    · split at h
      · assumption
      · cases h

theorem matchNumber_head {cs ds fe r : List Char} {neg : Bool} (h : matchNumber cs = some (neg, ds, fe, r)) :
    ∃ c cs', cs = c :: cs' ∧ (c.isDigit = true ∨ (c = '-' ∧ ∃ d ds, cs' = d :: ds ∧ d.isDigit = true)) := by
  unfold matchNumber at h
  split at h
  · cases h
  · rename_i ds' r1 h1
    obtain ⟨d, ds'', e, hd⟩ := matchInt_head h1
    cases cs with
    | nil => simp [splitNeg] at e
    | cons c cs =>
      by_cases hc : c = '-'
      · subst hc
        simp only [splitNeg, if_pos trivial] at e
        exact ⟨'-', cs, rfl, .inr ⟨rfl, d, ds'', e, hd⟩⟩
      · simp only [splitNeg, if_neg hc] at e
        cases e
        exact ⟨_, _, rfl, .inl hd⟩

theorem afterLit_ne {a c : Char} (as cs : List Char) (h : a ≠ c) : afterLit (a :: as) (c :: cs) = none := by
  simp [afterLit, List.isPrefixOf, h]

theorem afterLit_append (lit r : List Char) : afterLit lit (lit ++ r) = some r := by
  simp [afterLit]

/-- text that starts like a number is none of the literals -/
theorem parseScalar_num (F : FloatText) {c : Char} {cs : List Char}
    (h : c.isDigit = true ∨ (c = '-' ∧ ∃ d ds, cs = d :: ds ∧ d.isDigit = true)) :
    parseScalar F (c :: cs) = parseNum F (c :: cs) := by
  have hd : ∀ a : Char, a.isDigit = false → ∀ d : Char, d.isDigit = true → a ≠ d := by
    rintro a h1 d h2 rfl; rw [h1] at h2; cases h2
  have e : literals.findSome? (fun l => (afterLit l.1 (c :: cs)).map fun r => (l.2, r)) = none := by
    rcases h with h | ⟨rfl, d, ds, rfl, h⟩
    · simp [literals, afterLit_ne _ _ (hd 'n' (by decide) c h), afterLit_ne _ _ (hd 't' (by decide) c h),
        afterLit_ne _ _ (hd 'f' (by decide) c h), afterLit_ne _ _ (hd 'N' (by decide) c h),
        afterLit_ne _ _ (hd 'I' (by decide) c h), afterLit_ne _ _ (hd '-' (by decide) c h)]
    · have hI : 'I' ≠ d := hd 'I' (by decide) d h
      simp [literals, afterLit, List.isPrefixOf, hI]
  simp [parseScalar, e]

theorem headOk_num {c : Char} {cs : List Char}
    (h : c.isDigit = true ∨ (c = '-' ∧ ∃ d ds, cs = d :: ds ∧ d.isDigit = true)) : headOk c = true := by
  rcases h with h | ⟨rfl, _⟩
  · simp [headOk, h]
  · decide

theorem not_open_num {c : Char} {cs : List Char}
    (h : c.isDigit = true ∨ (c = '-' ∧ ∃ d ds, cs = d :: ds ∧ d.isDigit = true)) : c ≠ '"' ∧ c ≠ '[' ∧ c ≠ '{' := by
  rcases h with h | ⟨rfl, _⟩
  · refine ⟨?_, ?_, ?_⟩ <;> (rintro rfl; revert h; decide)
  · decide

theorem parseVal_scalar (F : FloatText) (n : Nat) {c : Char} {cs : List Char} (h : c ≠ '"' ∧ c ≠ '[' ∧ c ≠ '{') :
    parseVal F (n + 1) (c :: cs) = parseScalar F (c :: cs) := by
  rw [parseVal.eq_def]
  simp only
  split
  · rename_i heq; cases heq; exact absurd rfl h.1
  · rename_i heq; cases heq; exact absurd rfl h.2.1
  · rename_i heq; cases heq; exact absurd rfl h.2.2
  · rfl

theorem parseScalar_lit (F : FloatText) (lit : List Char) (j : Json) (r : List Char) (hmem : (lit, j) ∈ literals) :
    parseScalar F (lit ++ r) = some (j, r) := by
  simp only [literals, List.mem_cons, Prod.mk.injEq, List.not_mem_nil, or_false] at hmem
  rcases hmem with ⟨rfl, rfl⟩ | ⟨rfl, rfl⟩ | ⟨rfl, rfl⟩ | ⟨rfl, rfl⟩ | ⟨rfl, rfl⟩ | ⟨rfl, rfl⟩ <;>
    simp [parseScalar, literals, afterLit, List.isPrefixOf]

theorem parseVal_lit (F : FloatText) (n : Nat) (lit : List Char) (j : Json) (r : List Char) (hmem : (lit, j) ∈ literals) :
    parseVal F (n + 1) (lit ++ r) = some (j, r) := by
  have h := parseScalar_lit F lit j r hmem
  simp only [literals, List.mem_cons, Prod.mk.injEq, List.not_mem_nil, or_false] at hmem
  rcases hmem with ⟨rfl, rfl⟩ | ⟨rfl, rfl⟩ | ⟨rfl, rfl⟩ | ⟨rfl, rfl⟩ | ⟨rfl, rfl⟩ | ⟨rfl, rfl⟩ <;>
    exact (parseVal_scalar F n (by decide)).trans h

/-- a finite float or literal prints and parses -/
theorem parseVal_float {F : FloatText} (hF : F.Ok) (b : Nat) (hb : GoodFloat b) (n : Nat) (r : List Char) (hr : Stop r) :
    parseVal F (n + 1) (floatText F b ++ r) = some (.flt b, r) := by
  unfold floatText
  split
  · rename_i he
    split
    · rename_i hm
      rw [hb.2 he hm]
      exact parseVal_lit F n _ _ r (by simp [literals])
    · rename_i hm
      have hlt := hb.1
      split
      · rename_i hs
        rw [show b = infBits from by unfold infBits; omega]
        exact parseVal_lit F n _ _ r (by simp [literals])
      · rename_i hs
        rw [show b = negInfBits from by unfold negInfBits; omega]
        exact parseVal_lit F n _ _ r (by simp [literals])
  · rename_i he
    obtain ⟨neg, ds, fe, hne, hm⟩ := hF.fmt_number b hb.1 he
    have hsplit := matchNumber_split hm
    obtain ⟨c, cs, e, hc⟩ := matchNumber_head (matchNumber_append hm r hr)
    rw [e, parseVal_scalar F n (not_open_num hc), parseScalar_num F hc, ← e]
    simp only [parseNum, matchNumber_append hm r hr, if_neg hne]
    rw [List.append_nil] at hsplit
    rw [← hsplit, hF.parse_fmt b hb.1 he]

theorem floatText_head {F : FloatText} (hF : F.Ok) (b : Nat) (hb : GoodFloat b) :
    ∃ c cs, floatText F b = c :: cs ∧ headOk c = true := by
  unfold floatText
  split
  · split
    · exact ⟨_, _, rfl, by decide⟩
    · split
      · exact ⟨_, _, rfl, by decide⟩
      · exact ⟨_, _, rfl, by decide⟩
  · rename_i he
    obtain ⟨neg, ds, fe, hne, hm⟩ := hF.fmt_number b hb.1 he
    obtain ⟨c, cs, e, hc⟩ := matchNumber_head hm
    exact ⟨c, cs, e, headOk_num hc⟩

theorem jsonText_head {F : FloatText} (hF : F.Ok) (j : Json) (hf : FloatsOk j) :
    ∃ c cs, jsonText F j = c :: cs ∧ headOk c = true := by
  match j with
  | .null => exact ⟨_, _, rfl, by decide⟩
  | .bool true => exact ⟨_, _, rfl, by decide⟩
  | .bool false => exact ⟨_, _, rfl, by decide⟩
  | .num n =>
    obtain ⟨c, cs, e, hc⟩ := intText_head n
    exact ⟨c, cs, by simp [jsonText, e], headOk_num hc⟩
  | .flt b =>
    simp only [FloatsOk] at hf
    simpa [jsonText] using floatText_head hF b hf
  | .str s => exact ⟨_, _, by rw [jsonText]; rfl, by decide⟩
  | .arr [] => exact ⟨_, _, by rw [jsonText], by decide⟩
  | .arr (x :: xs) => exact ⟨_, _, by rw [jsonText]; rfl, by decide⟩
  | .obj [] => exact ⟨_, _, by rw [jsonText], by decide⟩
  | .obj ((k, x) :: xs) => exact ⟨_, _, by rw [jsonText]; rfl, by decide⟩

theorem skipWs_head {c : Char} {cs : List Char} (h : headOk c = true) : skipWs (c :: cs) = c :: cs := by
  simp [skipWs, (headOk_ne h).2.2]

theorem items_stop (F : FloatText) (xs : List Json) (r : List Char) : Stop (jsonTextItems F xs ++ r) := by
  cases xs <;> simp [jsonTextItems, Stop]

theorem fields_stop (F : FloatText) (xs : List (String × Json)) (r : List Char) : Stop (jsonTextFields F xs ++ r) := by
  rcases xs with _ | ⟨⟨k, x⟩, xs⟩ <;> simp [jsonTextFields, Stop]

/-! ## Objects with distinct keys -/

theorem putField_new {k : String} {v : Json} {d : List (String × Json)} (h : k ∉ d.map Prod.fst) :
    putField k v d = d ++ [(k, v)] := by
  induction d with
  | nil => rfl
  | cons p d ih =>
    obtain ⟨k', v'⟩ := p
    simp only [List.map_cons, List.mem_cons, not_or] at h
    simp only [putField, if_neg (Ne.symm h.1), ih h.2, List.cons_append]

theorem foldl_putField (ps d : List (String × Json)) (h : ((d ++ ps).map Prod.fst).Nodup) :
    ps.foldl (fun d p => putField p.1 p.2 d) d = d ++ ps := by
  induction ps generalizing d with
  | nil => simp
  | cons p ps ih =>
    simp only [List.foldl_cons]
    rw [putField_new]
    · rw [ih]
      · simp
      · simpa using h
    · simp only [List.map_append, List.map_cons, List.nodup_append, List.mem_map, List.mem_cons] at h
      intro hm
      simp only [List.mem_map] at hm
      exact h.2.2 p.1 hm p.1 (.inl rfl) rfl

theorem mkDict_nodup (ps : List (String × Json)) (h : (ps.map Prod.fst).Nodup) : mkDict ps = ps :=
  foldl_putField ps [] h

/-! ## The round trip -/

theorem strText_append (s : String) (r : List Char) :
    strText s ++ r = '"' :: (s.toList.flatMap escChar ++ '"' :: r) := by simp [strText]

theorem printableList_mem {xs : List Json} (h : printableList xs) : ∀ x ∈ xs, Printable x := by
  induction xs with
  | nil => simp
  | cons y ys ih =>
    simp only [printableList] at h
    intro x hx
    rcases List.mem_cons.mp hx with rfl | hx
    · exact h.1
    · exact ih h.2 x hx

theorem floatsOkList_mem {xs : List Json} (h : floatsOkList xs) : ∀ x ∈ xs, FloatsOk x := by
  induction xs with
  | nil => simp
  | cons y ys ih =>
    simp only [floatsOkList] at h
    intro x hx
    rcases List.mem_cons.mp hx with rfl | hx
    · exact h.1
    · exact ih h.2 x hx

theorem printableFields_mem {xs : List (String × Json)} (h : printableFields xs) : ∀ x ∈ xs, Printable x.2 := by
  induction xs with
  | nil => simp
  | cons y ys ih =>
    simp only [printableFields] at h
    intro x hx
    rcases List.mem_cons.mp hx with rfl | hx
    · exact h.1
    · exact ih h.2 x hx

theorem floatsOkFields_mem {xs : List (String × Json)} (h : floatsOkFields xs) : ∀ x ∈ xs, FloatsOk x.2 := by
  induction xs with
  | nil => simp
  | cons y ys ih =>
    simp only [floatsOkFields] at h
    intro x hx
    rcases List.mem_cons.mp hx with rfl | hx
    · exact h.1
    · exact ih h.2 x hx

/-- `parseVal` reads back the text of `j` -/
def Reads (F : FloatText) (j : Json) : Prop :=
  ∀ n, 2 * (jsonText F j).length ≤ n → ∀ r, Stop r → parseVal F n (jsonText F j ++ r) = some (j, r)

theorem parseItems_text {F : FloatText} (hF : F.Ok) (x : Json) (xs : List Json) (hx : Reads F x)
    (hxs : ∀ y ∈ xs, Reads F y) (hfs : floatsOkList xs)
    (n : Nat) (hn : 2 * ((jsonText F x).length + (jsonTextItems F xs).length) + 1 ≤ n) (r : List Char) :
    parseItems F n (jsonText F x ++ jsonTextItems F xs ++ r) = some (x :: xs, r) := by
  obtain ⟨m, rfl⟩ : ∃ m, n = m + 1 := ⟨n - 1, by omega⟩
  rw [parseItems, List.append_assoc,
    hx m (by omega) _ (items_stop F xs r)]
  simp only
  rw [skipWs_stop (items_stop F xs r)]
  cases xs with
  | nil => simp [jsonTextItems]
  | cons y ys =>
    simp only [floatsOkList] at hfs
    simp only [jsonTextItems, List.cons_append, List.length_cons, List.length_append] at hn ⊢
    obtain ⟨c, cs, e, hc⟩ := jsonText_head hF y hfs.1
    have hs : skipWs (jsonText F y ++ jsonTextItems F ys ++ r) = jsonText F y ++ jsonTextItems F ys ++ r := by
      rw [e]; exact skipWs_head hc
    rw [hs, parseItems_text hF y ys (hxs y (by simp)) (fun z hz => hxs z (by simp [hz])) hfs.2 m (by omega) r]
termination_by xs.length

theorem parseFields_text {F : FloatText} (hF : F.Ok) (k : String) (x : Json) (xs : List (String × Json)) (hx : Reads F x)
    (hxs : ∀ p ∈ xs, Reads F p.2) (hf : FloatsOk x) (hfs : floatsOkFields xs)
    (n : Nat) (hn : 2 * ((strText k).length + (jsonText F x).length + (jsonTextFields F xs).length) + 1 ≤ n)
    (r : List Char) :
    parseFields F n (strText k ++ ':' :: jsonText F x ++ jsonTextFields F xs ++ r) = some ((k, x) :: xs, r) := by
  obtain ⟨m, rfl⟩ : ∃ m, n = m + 1 := ⟨n - 1, by omega⟩
  have e' : strText k ++ ':' :: jsonText F x ++ jsonTextFields F xs ++ r =
      '"' :: (k.toList.flatMap escChar ++ '"' :: ':' :: (jsonText F x ++ (jsonTextFields F xs ++ r))) := by
    simp [strText]
  rw [e', parseFields]
  simp only [parseStr_text]
  rw [show skipWs (':' :: (jsonText F x ++ (jsonTextFields F xs ++ r))) =
    ':' :: (jsonText F x ++ (jsonTextFields F xs ++ r)) from by simp [skipWs, isWs]]
  simp only
  obtain ⟨c, cs, e, hc⟩ := jsonText_head hF x hf
  have hs : skipWs (jsonText F x ++ (jsonTextFields F xs ++ r)) = jsonText F x ++ (jsonTextFields F xs ++ r) := by
    rw [e]; exact skipWs_head hc
  rw [hs, hx m (by omega) _ (fields_stop F xs r)]
  simp only
  rw [skipWs_stop (fields_stop F xs r)]
  cases xs with
  | nil => simp [jsonTextFields]
  | cons p ys =>
    obtain ⟨k', y⟩ := p
    simp only [floatsOkFields] at hfs
    simp only [jsonTextFields, List.cons_append, List.length_cons, List.length_append] at hn ⊢
    have hrec := parseFields_text hF k' y ys (hxs (k', y) (by simp)) (fun z hz => hxs z (by simp [hz])) hfs.1 hfs.2 m (by omega) r
    have hs2 : skipWs (strText k' ++ ':' :: jsonText F y ++ jsonTextFields F ys ++ r) =
        strText k' ++ ':' :: jsonText F y ++ jsonTextFields F ys ++ r := by
      simp only [strText, List.cons_append]
      exact skipWs_head (by decide)
    rw [hs2, hrec]
termination_by xs.length
theorem parseVal_text_aux {F : FloatText} (hF : F.Ok) (sz : Nat) : ∀ j : Json, sizeOf j < sz → Printable j → FloatsOk j →
    DistinctKeys j → Reads F j := by
  induction sz with
  | zero => intro j h; omega
  | succ sz ih =>
  intro j hsz hp hf hd n hn r hr
  obtain ⟨c0, cs0, e0, hc0⟩ := jsonText_head hF j hf
  obtain ⟨m, rfl⟩ : ∃ m, n = m + 1 := ⟨n - 1, by rw [e0, List.length_cons] at hn; omega⟩
  cases j with
  | null => rw [jsonText]; exact parseVal_lit F m _ _ r (by simp [literals])
  | bool b =>
    cases b with
    | true => rw [jsonText, if_pos rfl]; exact parseVal_lit F m _ _ r (by simp [literals])
    | false => rw [jsonText, if_neg (by decide)]; exact parseVal_lit F m _ _ r (by simp [literals])
  | num i =>
    simp only [Printable] at hp
    obtain ⟨c, cs, e, hc⟩ := intText_head i
    have hc' : c.isDigit = true ∨ (c = '-' ∧ ∃ d ds, cs ++ r = d :: ds ∧ d.isDigit = true) := by
      rcases hc with h | ⟨h1, d, ds, h2, h3⟩
      · exact .inl h
      · exact .inr ⟨h1, d, ds ++ r, by rw [h2]; rfl, h3⟩
    have e' : intText i ++ r = c :: (cs ++ r) := by rw [e]; rfl
    simp only [jsonText]
    rw [e', parseVal_scalar F m (not_open_num hc'), parseScalar_num F hc', ← e']
    exact parseNum_int F i hp r hr
  | flt b =>
    simp only [FloatsOk] at hf
    simp only [jsonText]
    exact parseVal_float hF b hf m r hr
  | str s =>
    simp only [jsonText]
    rw [strText_append, parseVal.eq_def]
    simp only [parseStr_text]
  | arr l =>
    cases l with
    | nil =>
      simp only [jsonText]
      rw [parseVal.eq_def]
      simp [skipWs, isWs]
    | cons x xs =>
      simp only [FloatsOk, floatsOkList] at hf
      simp only [Printable, printableList] at hp
      simp only [DistinctKeys, distinctList] at hd
      simp only [jsonText, List.length_cons, List.length_append, List.cons_append] at hn ⊢
      obtain ⟨c, cs, e, hc⟩ := jsonText_head hF x hf.1
      rw [parseVal.eq_def]
      simp only
      have e' : jsonText F x ++ jsonTextItems F xs ++ r = c :: (cs ++ jsonTextItems F xs ++ r) := by rw [e]; rfl
      have hs : skipWs (jsonText F x ++ jsonTextItems F xs ++ r) = jsonText F x ++ jsonTextItems F xs ++ r := by
        rw [e']; exact skipWs_head hc
      rw [hs]
      have hrec := parseItems_text hF x xs (ih x (by simp at hsz; omega) hp.1 hf.1 hd.1)
        (fun y hy => ih y (by have := List.sizeOf_lt_of_mem hy; simp at hsz; omega) (printableList_mem hp.2 y hy) (floatsOkList_mem hf.2 y hy) (distinctList_mem hd.2 y hy)) hf.2 m (by omega) r
      split
      · rename_i heq
        rw [e'] at heq
        cases heq
        exact absurd rfl (headOk_ne hc).1
      · rw [hrec]
  | obj l =>
    cases l with
    | nil =>
      simp only [jsonText]
      rw [parseVal.eq_def]
      simp [skipWs, isWs]
    | cons p xs =>
      obtain ⟨k, x⟩ := p
      simp only [FloatsOk, floatsOkFields] at hf
      simp only [Printable, printableFields] at hp
      simp only [DistinctKeys, distinctFields] at hd
      simp only [jsonText, List.length_cons, List.length_append, List.cons_append] at hn ⊢
      rw [parseVal.eq_def]
      simp only
      have e' : strText k ++ ':' :: (jsonText F x ++ jsonTextFields F xs) ++ r =
        '"' :: (k.toList.flatMap escChar ++ '"' :: ':' :: (jsonText F x ++ jsonTextFields F xs ++ r)) := by
        simp [strText]
      have hrec := parseFields_text hF k x xs (ih x (by simp at hsz; omega) hp.1 hf.1 hd.2.1)
        (fun y hy => ih y.2 (by have := List.sizeOf_lt_of_mem hy; obtain ⟨k', y⟩ := y; simp at hsz this ⊢; omega)
          (printableFields_mem hp.2 y hy) (floatsOkFields_mem hf.2 y hy) (distinctFields_mem hd.2.2 y hy)) hf.1 hf.2 m (by omega) r
      have e2 : strText k ++ ':' :: (jsonText F x ++ jsonTextFields F xs) ++ r =
        strText k ++ ':' :: jsonText F x ++ jsonTextFields F xs ++ r := by simp
      rw [e2] at e'
      have hs : skipWs (strText k ++ ':' :: jsonText F x ++ jsonTextFields F xs ++ r) =
        strText k ++ ':' :: jsonText F x ++ jsonTextFields F xs ++ r := by
        rw [e']; exact skipWs_head (by decide)
      rw [hs]
      split
      · rename_i heq
        rw [e'] at heq
        cases heq
      · rw [hrec]; simp only; rw [mkDict_nodup _ hd.1]
theorem parseVal_text {F : FloatText} (hF : F.Ok) (j : Json) (hp : Printable j) (hf : FloatsOk j) (hd : DistinctKeys j) :
    Reads F j := parseVal_text_aux hF (sizeOf j + 1) j (by omega) hp hf hd

/-- `json.loads(json.dumps(j)) == j` for every JSON tree whose ints are printable, whose NaNs are python's and whose dicts
have distinct keys. -/
theorem jsonLoads_text {F : FloatText} (hF : F.Ok) (j : Json) (hp : Printable j) (hf : FloatsOk j) (hd : DistinctKeys j) :
    jsonLoads F (jsonText F j) = some j := by
  obtain ⟨c, cs, e, hc⟩ := jsonText_head hF j hf
  have hs : skipWs (jsonText F j) = jsonText F j := by rw [e]; exact skipWs_head hc
  have h := parseVal_text hF j hp hf hd (2 * (jsonText F j).length + 2) (by omega) [] trivial
  rw [List.append_nil] at h
  unfold jsonLoads
  rw [hs, h]
  rfl

end Verif.Serde
