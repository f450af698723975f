import Verif.Phe.Props
/-! # C61 — rounding error of integers beyond 53 bits
Model: /repo/mplang/backends/phe_impl.py:86-121 (see Verif.Phe.Model). -/
namespace Verif.Phe

variable {C : Type}

/-- `float(n)` has at most 53 significant bits. -/
theorem roundNat_form (n : Nat) : ∃ m j, m ≤ 2 ^ 53 ∧ roundNat n = m * 2 ^ j := by
  unfold roundNat
  split
  · rename_i h; exact ⟨n, 0, by omega, by simp⟩
  · rename_i h
    have hn : n ≠ 0 := by rintro rfl; exact h (by decide)
    have h52 : 52 ≤ Nat.log 2 n :=
      Nat.le_log_of_pow_le (by decide) (Nat.le_trans (by decide) (Nat.not_lt.mp h))
    refine ⟨_, Nat.log 2 n - 52, ?_, rfl⟩
    have hq : n / 2 ^ (Nat.log 2 n - 52) < 2 ^ 53 := by
      rw [Nat.div_lt_iff_lt_mul (Nat.two_pow_pos _), ← Nat.pow_add]
      have := Nat.lt_pow_succ_log_self (b := 2) (by decide) n
      have e : 53 + (Nat.log 2 n - 52) = (Nat.log 2 n).succ := by omega
      rw [e]; exact this
    split <;> omega

/-- `float(n)` is a nearest double: the relative error is at most `2 ^ -53`. -/
theorem roundNat_error (n : Nat) : |((roundNat n : Nat) : ℚ) - n| * 2 ^ 53 ≤ n := by
  unfold roundNat
  split
  · simp
  · rename_i h
    have hn : n ≠ 0 := by rintro rfl; exact h (by decide)
    have h52 : 52 ≤ Nat.log 2 n :=
      Nat.le_log_of_pow_le (by decide) (Nat.le_trans (by decide) (Nat.not_lt.mp h))
    have hpow : 2 ^ (Nat.log 2 n - 52) * 2 ^ 52 ≤ n := by
      rw [← Nat.pow_add, Nat.sub_add_cancel h52]
      exact Nat.pow_log_le_self 2 hn
    have hpos : 0 < 2 ^ (Nat.log 2 n - 52) := Nat.two_pow_pos _
    simp only
    generalize 2 ^ (Nat.log 2 n - 52) = p at hpow hpos ⊢
    have hpq : ((p : ℚ)) * 2 ^ 52 ≤ n := by exact_mod_cast hpow
    have hsplit : (n : ℚ) = p * (n / p : Nat) + (n % p : Nat) := by
      exact_mod_cast (Nat.div_add_mod n p).symm
    have hr : ((n % p : Nat) : ℚ) ≤ p := by
      exact_mod_cast (Nat.mod_lt n hpos).le
    have key : ∀ d : ℚ, |d| * 2 ≤ p → |d| * 2 ^ 53 ≤ n := by intro d hd; nlinarith
    by_cases hu : p < 2 * (n % p) ∨ (2 * (n % p) = p ∧ n / p % 2 = 1)
    · simp only [if_pos hu]
      apply key
      have h1 : (p : ℚ) ≤ 2 * (n % p : Nat) := by
        have : p ≤ 2 * (n % p) := by omega
        exact_mod_cast this
      push_cast
      have e : ((n / p : Nat) + 1 : ℚ) * p - n = p - (n % p : Nat) := by rw [hsplit]; push_cast; ring
      push_cast at e
      rw [e, abs_of_nonneg (by push_cast at hr; linarith)]
      push_cast at h1
      linarith
    · simp only [if_neg hu]
      apply key
      have h1 : 2 * ((n % p : Nat) : ℚ) ≤ p := by
        have : 2 * (n % p) ≤ p := by omega
        exact_mod_cast this
      push_cast
      have e : ((n / p : Nat) : ℚ) * p - n = -((n % p : Nat) : ℚ) := by rw [hsplit]; push_cast; ring
      push_cast at e
      rw [e, abs_neg, abs_of_nonneg (by positivity)]
      push_cast at h1
      linarith

/-- **C61**: an integer of any size is recovered through encode, encrypt, decrypt and decode with a
relative error of at most `2 ^ -53`, when its encoding lies (with one bit to spare) in the plaintext
and float ranges. -/
theorem int_roundtrip_error {L : PheLib C} (hL : L.Ok) (r k v : Nat) (hn : 2 * v * 2 ^ k < L.n)
    (hb : 2 * v * 2 ^ k < floatLimit) :
    ∃ (c : Val C) (w : ℚ), encryptAuto L r (.int v) (.encoder k) = .ok c ∧
      decryptAuto L c (.encoder k) = .ok (.flt w) ∧ |w - v| * 2 ^ 53 ≤ v := by
  obtain ⟨m, j, hm, hf⟩ := roundNat_form v
  have herr := roundNat_error v
  have hle : roundNat v ≤ 2 * v := by
    have h1 := le_abs_self (((roundNat v : Nat) : ℚ) - v)
    have : ((roundNat v : Nat) : ℚ) ≤ 2 * v := by
      have h2 : |((roundNat v : Nat) : ℚ) - v| ≤ v := by
        have h3 := abs_nonneg (((roundNat v : Nat) : ℚ) - v)
        have : |((roundNat v : Nat) : ℚ) - v| * 1 ≤ |((roundNat v : Nat) : ℚ) - v| * 2 ^ 53 :=
          mul_le_mul_of_nonneg_left (by norm_num) h3
        linarith
      linarith
    exact_mod_cast this
  have hle2 : roundNat v * 2 ^ k ≤ 2 * v * 2 ^ k := Nat.mul_le_mul_right _ hle
  have hb1 : roundNat v * 2 ^ k < floatLimit := Nat.lt_of_le_of_lt hle2 hb
  have hb0 : roundNat v < floatLimit :=
    Nat.lt_of_le_of_lt (Nat.le_mul_of_pos_right _ (Nat.two_pow_pos k)) hb1
  have h1 : floatOfInt (v : Int) = .ok (roundNat v : Int) := by
    simp only [floatOfInt, Int.natAbs_natCast, if_pos hb0]
    rw [if_neg (by omega)]
  have he : encode (C := C) (.int v) (.encoder k) = .ok (.int ((roundNat v : Int) * 2 ^ k)) := by
    simp only [encode, h1, Int.natAbs_natCast, if_pos hb1]
  have hval : (roundNat v : Int) * 2 ^ k = (m : Int) * 2 ^ (j + k) := by
    rw [hf]; push_cast; ring
  have hval' : roundNat v * 2 ^ k = m * 2 ^ (j + k) := by exact_mod_cast hval
  obtain ⟨c, hc, hd⟩ := expr_decodes hL (.enc r ((roundNat v : Int) * 2 ^ k)) k m (j + k) hm hval
    (by simp only [Expr.value]; exact_mod_cast Nat.lt_of_le_of_lt hle2 hn) (hval' ▸ hb1)
  refine ⟨c, (roundNat v : ℚ), ?_, ?_, herr⟩
  · simp only [encryptAuto, he, bind, Except.bind]
    exact hc
  · rw [hd, hf]
    have hk : (2 : ℚ) ^ k ≠ 0 := by positivity
    congr 2
    push_cast
    rw [pow_add, ← mul_assoc, mul_div_assoc, div_self hk, mul_one]

/-- A number that needs 60 bits meets the hypotheses. -/
example : ∃ (c : Val _) (w : ℚ), encryptAuto (toyPhe (2 ^ 100)) 0 (.int ((2 ^ 60 + 1 : Nat) : Int)) (.encoder 10) = .ok c ∧
    decryptAuto (toyPhe (2 ^ 100)) c (.encoder 10) = .ok (.flt w) ∧
    |w - ((2 ^ 60 + 1 : Nat) : ℚ)| * 2 ^ 53 ≤ ((2 ^ 60 + 1 : Nat) : ℚ) :=
  int_roundtrip_error (toyPhe_ok _ (by decide)) 0 10 _ (by show 2 * (2 ^ 60 + 1) * 2 ^ 10 < 2 ^ 100; decide)
    (Nat.lt_trans (by decide) (show 2 ^ 100 < floatLimit by unfold floatLimit; exact Nat.pow_lt_pow_right (by decide) (by decide)))

end Verif.Phe
