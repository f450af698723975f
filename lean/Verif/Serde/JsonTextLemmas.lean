import Verif.Serde.JsonText
import Verif.Tool.Sort
/-! # The JSON text codec is lossless: lemmas -/
namespace Verif.Serde
open Verif.Tool

/-! ## Strings -/

theorem hexVal_digit : ∀ d, d < 16 → hexVal (hexDigit d) = some d := by decide

theorem hexDigit_ne : ∀ d, d < 16 → hexDigit d ≠ '"' ∧ hexDigit d ≠ '\\' := by decide

theorem strUnits_uEsc (n : Nat) (hn : n < 65536) (r : List Char) (us : List Nat) (q : List Char)
    (h : strUnits r = some (us, q)) : strUnits (uEsc n ++ r) = some (n :: us, q) := by
  simp only [uEsc, List.cons_append, List.nil_append]
  rw [strUnits.eq_def]
  simp only
  rw [if_neg (by decide), if_pos trivial, if_pos trivial]
  simp only [hex4, hexVal_digit _ (Nat.mod_lt _ (by decide : 16 > 0)), h]
  congr 2
  congr 1
  omega

theorem strUnits_esc (e : Char) (u : Nat) (he : e ≠ 'u') (hu : escVal e = some u) (r : List Char) (us : List Nat)
    (q : List Char) (h : strUnits r = some (us, q)) : strUnits ('\\' :: e :: r) = some (u :: us, q) := by
  rw [strUnits.eq_def]
  simp only
  rw [if_neg (by decide), if_pos trivial, if_neg he, hu, h]

/-- the code units of a character -/
def unitsOf (c : Char) : List Nat :=
  if c.toNat < 0x10000 then [c.toNat] else [0xd800 + (c.toNat - 0x10000) / 1024, 0xdc00 + (c.toNat - 0x10000) % 1024]

theorem char_toNat_lt (c : Char) : c.toNat < 0x110000 ∧ ¬ (0xd800 ≤ c.toNat ∧ c.toNat ≤ 0xdfff) := by
  have := c.valid
  simp only [UInt32.isValidChar, Nat.isValidChar] at this
  simp only [Char.toNat]
  omega

theorem strUnits_escChar (c : Char) (r : List Char) (us : List Nat) (q : List Char)
    (h : strUnits r = some (us, q)) : strUnits (escChar c ++ r) = some (unitsOf c ++ us, q) := by
  have hc := char_toNat_lt c
  unfold escChar
  split
  · subst c; exact strUnits_esc _ _ (by decide) (by decide) _ _ _ h
  split
  · subst c; exact strUnits_esc _ _ (by decide) (by decide) _ _ _ h
  split
  · subst c; exact strUnits_esc _ _ (by decide) (by decide) _ _ _ h
  split
  · subst c; exact strUnits_esc _ _ (by decide) (by decide) _ _ _ h
  split
  · subst c; exact strUnits_esc _ _ (by decide) (by decide) _ _ _ h
  split
  · rename_i h12
    have e : c = Char.ofNat 12 := by rw [← h12]; simp
    subst e; exact strUnits_esc _ _ (by decide) (by decide) _ _ _ h
  split
  · rename_i h8
    have e : c = Char.ofNat 8 := by rw [← h8]; simp
    subst e; exact strUnits_esc _ _ (by decide) (by decide) _ _ _ h
  split
  · rename_i h1 h2 _ _ _ _ _ h3
    simp only [List.cons_append, List.nil_append]
    rw [strUnits.eq_def]
    simp only
    rw [if_neg h1, if_neg h2, if_neg (by omega), h]
    simp only [unitsOf]
    rw [if_pos (by omega)]
    rfl
  split
  · rename_i h3
    rw [strUnits_uEsc _ h3 _ _ _ h]
    simp [unitsOf, h3]
  · rename_i h3
    rw [List.append_assoc, strUnits_uEsc _ (by omega) _ _ _ (strUnits_uEsc _ (by omega) _ _ _ h)]
    simp [unitsOf, h3]

theorem ofNat_toNat (c : Char) : Char.ofNat c.toNat = c := by simp

theorem joinUnits_char (c : Char) (us : List Nat) (cs : List Char) (h : joinUnits us = some cs) :
    joinUnits (unitsOf c ++ us) = some (c :: cs) := by
  have hc := char_toNat_lt c
  unfold unitsOf
  split
  · simp only [List.cons_append, List.nil_append]
    rw [joinUnits.eq_def]
    simp only
    rw [if_neg (by omega), if_neg (by omega), h]
    simp
  · rename_i h3
    simp only [List.cons_append, List.nil_append]
    rw [joinUnits.eq_def]
    simp only
    rw [if_pos (by omega), if_pos (by omega), h]
    simp only
    rw [show 65536 + (55296 + (c.toNat - 65536) / 1024 - 55296) * 1024 + (56320 + (c.toNat - 65536) % 1024 - 56320)
      = c.toNat from by omega, ofNat_toNat]

theorem strUnits_text (s : List Char) (r : List Char) :
    strUnits (s.flatMap escChar ++ '"' :: r) = some (s.flatMap unitsOf, r) := by
  induction s with
  | nil => simp only [List.flatMap_nil, List.nil_append]; rw [strUnits.eq_def]; simp
  | cons c s ih =>
    simp only [List.flatMap_cons, List.append_assoc]
    exact strUnits_escChar c _ _ _ ih

theorem joinUnits_units (s : List Char) : joinUnits (s.flatMap unitsOf) = some s := by
  induction s with
  | nil => rfl
  | cons c s ih => simp only [List.flatMap_cons]; exact joinUnits_char c _ _ ih

theorem parseStr_text (s : String) (r : List Char) :
    parseStr (s.toList.flatMap escChar ++ '"' :: r) = some (s, r) := by
  simp [parseStr, strUnits_text, joinUnits_units]

/-! ## Numbers -/

/-- what can follow a value in printed text: nothing, a comma, or a closing bracket -/
def Stop : List Char → Prop
  | [] => True
  | c :: _ => c = ',' ∨ c = ']' ∨ c = '}'

theorem stop_head {c : Char} {r : List Char} (h : Stop (c :: r)) :
    c.isDigit = false ∧ c ≠ '.' ∧ c ≠ 'e' ∧ c ≠ 'E' ∧ c ≠ '+' ∧ c ≠ '-' ∧ isWs c = false := by
  rcases h with rfl | rfl | rfl <;> decide

theorem takeWhile_stop (ds r : List Char) (hd : ∀ c ∈ ds, c.isDigit = true) (h : Stop r) :
    (ds ++ r).takeWhile Char.isDigit = ds ∧ (ds ++ r).dropWhile Char.isDigit = r := by
  induction ds with
  | nil =>
    cases r with
    | nil => simp
    | cons c r => simp [(stop_head h).1]
  | cons d ds ih =>
    have := ih fun c hc => hd c (List.mem_cons_of_mem _ hc)
    simp [hd d (by simp), this.1, this.2]

theorem skipWs_stop {r : List Char} (h : Stop r) : skipWs r = r := by
  cases r with
  | nil => rfl
  | cons c r => simp [skipWs, (stop_head h).2.2.2.2.2.2]

theorem toDigits_head (n : Nat) : ∃ c ds, Nat.toDigits 10 n = c :: ds ∧ (c = '0' → ds = []) ∧ c.isDigit = true ∧
    ∀ d ∈ ds, d.isDigit = true := by
  have hall : ∀ c ∈ Nat.toDigits 10 n, c.isDigit = true := fun c hc => Nat.isDigit_of_mem_toDigits (by decide) (by decide) hc
  have hz : ∀ n : Nat, ∃ c ds, Nat.toDigits 10 n = c :: ds ∧ (c = '0' → ds = [] ∧ n = 0) := by
    intro n
    induction n using Nat.strongRecOn with
    | _ n ih =>
      rw [Nat.toDigits_eq_if (by decide)]
      split
      · exact ⟨_, [], rfl, fun h => ⟨rfl, by simpa using h⟩⟩
      · rename_i h
        obtain ⟨c, ds, e, hc⟩ := ih (n / 10) (by omega)
        refine ⟨c, ds ++ [_], by rw [e]; rfl, fun h0 => ?_⟩
        have := (hc h0).2
        omega
  obtain ⟨c, ds, e, h0⟩ := hz n
  rw [e] at hall
  exact ⟨c, ds, e, fun h => (h0 h).1, hall c (by simp), fun d hd => hall d (by simp [hd])⟩

theorem matchFrac_stop {r : List Char} (h : Stop r) : matchFrac r = ([], r) := by
  cases r with
  | nil => rfl
  | cons c r =>
    unfold matchFrac
    split
    · rename_i heq; cases heq; exact absurd rfl (stop_head h).2.1
    · rfl

theorem matchExp_stop {r : List Char} (h : Stop r) : matchExp r = ([], r) := by
  cases r with
  | nil => rfl
  | cons c r =>
    have := stop_head h
    simp [matchExp, this.2.2.1, this.2.2.2.1]

theorem matchInt_digits (n : Nat) (r : List Char) (h : Stop r) :
    matchInt (Nat.toDigits 10 n ++ r) = some (Nat.toDigits 10 n, r) := by
  obtain ⟨c, ds, e, h0, hc, hds⟩ := toDigits_head n
  rw [e]
  simp only [List.cons_append, matchInt]
  by_cases hz : c = '0'
  · simp [hz, h0 hz]
  · rw [if_neg hz, if_pos hc, (takeWhile_stop ds r hds h).1, (takeWhile_stop ds r hds h).2]

theorem matchNumber_nat (n : Nat) (r : List Char) (h : Stop r) :
    matchNumber (Nat.toDigits 10 n ++ r) = some (false, Nat.toDigits 10 n, [], r) := by
  have hm := matchInt_digits n r h
  obtain ⟨c, ds, e, h0, hc, hds⟩ := toDigits_head n
  have hneg : c ≠ '-' := by rintro rfl; exact absurd hc (by decide)
  have hs : splitNeg (Nat.toDigits 10 n ++ r) = (false, Nat.toDigits 10 n ++ r) := by
    rw [e]; simp [splitNeg, hneg]
  simp [matchNumber, hs, hm, matchFrac_stop h, matchExp_stop h]

theorem matchNumber_neg (n : Nat) (r : List Char) (h : Stop r) :
    matchNumber ('-' :: Nat.toDigits 10 n ++ r) = some (true, Nat.toDigits 10 n, [], r) := by
  simp [matchNumber, splitNeg, matchInt_digits n r h, matchFrac_stop h, matchExp_stop h]

theorem parseNum_int (F : FloatText) (n : Int) (hn : n.natAbs < 10 ^ maxDigits) (r : List Char) (h : Stop r) :
    parseNum F (intText n ++ r) = some (.num n, r) := by
  cases n with
  | ofNat n =>
    have hl := (Nat.length_toDigits_le_iff (b := 10) (n := n) (k := maxDigits) (by decide) (by decide)).mpr hn
    simp only [intText, parseNum, matchNumber_nat n r h]
    rw [if_pos trivial, if_pos hl, Nat.ofDigitChars_toDigits (by decide) (by decide)]
    simp
  | negSucc n =>
    have hl := (Nat.length_toDigits_le_iff (b := 10) (n := n + 1) (k := maxDigits) (by decide) (by decide)).mpr hn
    simp only [intText, parseNum, matchNumber_neg (n + 1) r h]
    rw [if_pos trivial, if_pos hl, Nat.ofDigitChars_toDigits (by decide) (by decide)]
    simp
    rfl

/-! ### Floats: the number matcher on a longer text -/

theorem matchInt_split {cs ds r : List Char} (h : matchInt cs = some (ds, r)) : cs = ds ++ r := by
  cases cs with
  | nil => simp [matchInt] at h
  | cons c cs =>
    simp only [matchInt] at h
    split at h
    · rename_i hc; cases h; simp [hc]
    · split at h
      · cases h; simp [List.takeWhile_append_dropWhile]
      · cases h

theorem matchFrac_split {cs ds r : List Char} (h : matchFrac cs = (ds, r)) : cs = ds ++ r := by
  unfold matchFrac at h
  split at h
  · split at h
    · cases h; simp [List.takeWhile_append_dropWhile]
    · cases h; rfl
  · cases h; rfl

theorem matchSign_split (cs : List Char) : cs = (matchSign cs).1 ++ (matchSign cs).2 := by
  unfold matchSign
  split <;> rfl

theorem matchExp_split {cs ds r : List Char} (h : matchExp cs = (ds, r)) : cs = ds ++ r := by
  unfold matchExp at h
  split at h
  · cases h; rfl
  · split at h
    · rename_i e q _
      have hq := matchSign_split q
      split at h
      · rename_i s d r' heq
        rw [heq] at hq
        split at h
        · cases h
          rw [hq]
          simp [List.takeWhile_append_dropWhile]
        · cases h; rfl
      · cases h; rfl
    · cases h; rfl

theorem splitNeg_split (cs : List Char) : cs = (if (splitNeg cs).1 then ['-'] else []) ++ (splitNeg cs).2 := by
  cases cs with
  | nil => rfl
  | cons c r => by_cases hc : c = '-' <;> simp [splitNeg, hc]

theorem matchNumber_split {cs ds fe r : List Char} {neg : Bool} (h : matchNumber cs = some (neg, ds, fe, r)) :
    cs = (if neg then ['-'] else []) ++ ds ++ fe ++ r := by
  unfold matchNumber at h
  have h0 := splitNeg_split cs
  split at h
  · cases h
  · rename_i ds' r1 h1
    have e1 := matchInt_split h1
    have e2 := matchFrac_split (Prod.eta (matchFrac r1)).symm
    have e3 := matchExp_split (Prod.eta (matchExp (matchFrac r1).2)).symm
    cases h
    rw [e1] at h0
    rw [e2, e3] at h0
    simpa using h0

theorem takeWhile_append_stop (a r : List Char) (h : Stop r) :
    (a ++ r).takeWhile Char.isDigit = a.takeWhile Char.isDigit ∧
    (a ++ r).dropWhile Char.isDigit = a.dropWhile Char.isDigit ++ r := by
  induction a with
  | nil =>
    cases r with
    | nil => simp
    | cons c r => simp [(stop_head h).1]
  | cons d ds ih =>
    by_cases hd : d.isDigit = true
    · simp [hd, ih.1, ih.2]
    · simp [hd]

theorem matchInt_append {cs ds q : List Char} (h : matchInt cs = some (ds, q)) (r : List Char) (hr : Stop r) :
    matchInt (cs ++ r) = some (ds, q ++ r) := by
  cases cs with
  | nil => simp [matchInt] at h
  | cons c cs =>
    simp only [matchInt, List.cons_append] at h ⊢
    split at h
    · rename_i hc; cases h; rw [if_pos hc]
    · rename_i hc
      rw [if_neg hc]
      split at h
      · rename_i hd; cases h; rw [if_pos hd, (takeWhile_append_stop cs r hr).1, (takeWhile_append_stop cs r hr).2]
      · cases h

theorem matchFrac_append {cs ds q : List Char} (h : matchFrac cs = (ds, q)) (r : List Char) (hr : Stop r) :
    matchFrac (cs ++ r) = (ds, q ++ r) := by
  match cs, h with
  | [], h => cases h; exact matchFrac_stop hr
  | [c], h =>
    have : matchFrac [c] = ([], [c]) := by
      unfold matchFrac; split
      · rename_i heq; cases heq
      · rfl
    rw [this] at h
    cases h
    cases r with
    | nil => simp [this]
    | cons d r =>
      simp only [List.cons_append, List.nil_append]
      by_cases hc : c = '.'
      · subst hc; simp [matchFrac, (stop_head hr).1]
      · unfold matchFrac; split
        · rename_i heq; cases heq; exact absurd rfl hc
        · rfl
  | c :: d :: cs, h =>
    simp only [List.cons_append]
    by_cases hc : c = '.'
    · subst hc
      simp only [matchFrac] at h ⊢
      split at h
      · rename_i hd; cases h; rw [if_pos hd, (takeWhile_append_stop cs r hr).1, (takeWhile_append_stop cs r hr).2]
      · rename_i hd; cases h; rw [if_neg hd]; rfl
    · have h2 : ∀ l : List Char, matchFrac (c :: l) = ([], c :: l) := by
        intro l; unfold matchFrac; split
        · rename_i heq; cases heq; exact absurd rfl hc
        · rfl
      rw [h2] at h ⊢
      cases h; rfl

theorem matchSign_append (cs : List Char) (r : List Char) (hr : Stop r) :
    matchSign (cs ++ r) = ((matchSign cs).1, (matchSign cs).2 ++ r) := by
  cases cs with
  | nil =>
    cases r with
    | nil => rfl
    | cons c r =>
      have := stop_head hr
      have : matchSign (c :: r) = ([], c :: r) := by
        unfold matchSign
        split
        · rename_i heq; cases heq; simp at this
        · rename_i heq; cases heq; simp at this
        · rfl
      simp only [List.nil_append, this]
      rfl
  | cons c cs =>
    simp only [List.cons_append]
    unfold matchSign
    split
    · rename_i heq; cases heq; rfl
    · rename_i heq; cases heq; rfl
    · rename_i h1 h2
      split
      · rename_i heq; cases heq; exact absurd rfl (h1 _)
      · rename_i heq; cases heq; exact absurd rfl (h2 _)
      · rfl

theorem matchExp_append {cs ds : List Char} (h : matchExp cs = (ds, [])) (r : List Char) (hr : Stop r) :
    matchExp (cs ++ r) = (ds, r) := by
  cases cs with
  | nil => cases h; exact matchExp_stop hr
  | cons e cs =>
    simp only [matchExp, List.cons_append] at h ⊢
    rw [matchSign_append cs r hr]
    split at h
    · rename_i he
      rw [if_pos he]
      split at h
      · rename_i s d r' heq
        rw [heq]
        simp only [List.cons_append]
        split at h
        · rename_i hd
          simp only [Prod.mk.injEq] at h
          rw [if_pos hd, (takeWhile_append_stop r' r hr).1, (takeWhile_append_stop r' r hr).2, h.1, h.2]
          rfl
        · cases h
      · cases h
    · cases h

theorem splitNeg_append (cs r : List Char) (h : cs ≠ []) : splitNeg (cs ++ r) = ((splitNeg cs).1, (splitNeg cs).2 ++ r) := by
  cases cs with
  | nil => exact absurd rfl h
  | cons c cs => by_cases hc : c = '-' <;> simp [splitNeg, hc]

theorem matchNumber_append {cs ds fe : List Char} {neg : Bool} (h : matchNumber cs = some (neg, ds, fe, []))
    (r : List Char) (hr : Stop r) : matchNumber (cs ++ r) = some (neg, ds, fe, r) := by
  have hne : cs ≠ [] := by
    rintro rfl
    simp [matchNumber, matchInt, splitNeg] at h
  unfold matchNumber at h ⊢
  rw [splitNeg_append cs r hne]
  split at h
  · cases h
  · rename_i ds' r1 h1
    simp only [Option.some.injEq, Prod.mk.injEq] at h
    obtain ⟨a1, a2, a3, a4⟩ := h
    simp only [matchInt_append h1 r hr]
    rw [matchFrac_append (Prod.eta (matchFrac r1)).symm r hr]
    simp only
    rw [matchExp_append (ds := (matchExp (matchFrac r1).2).1) (by rw [← a4]) r hr]
    simp [a1, a2, a3]

end Verif.Serde
