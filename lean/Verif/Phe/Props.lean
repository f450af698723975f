import Verif.Phe.Model
import Mathlib.Tactic.Ring
import Mathlib.Tactic.Linarith
import Mathlib.Tactic.FieldSimp
import Mathlib.Tactic.Positivity
import Mathlib.Data.Rat.Floor
import Mathlib.Tactic.NormNum
/-! # C61 — fixed-point arithmetic on ciphertexts -/
namespace Verif.Phe

variable {C : Type}

/-- **C61**: every program of encryptions, additions and multiplications by plaintexts runs, and its result decrypts to the
program's value modulo `n`. -/
theorem expr_decrypts {L : PheLib C} (hL : L.Ok) (e : Expr) :
    ∃ c, e.run L = .ok (.ct c) ∧ decrypt L (.ct c) = .ok (.int (e.value % L.n)) := by
  have key : ∃ c, e.run L = .ok (.ct c) ∧ L.dec c = e.value % L.n := by
    induction e with
    | enc r v => exact ⟨_, rfl, hL.dec_enc r v⟩
    | addC a b iha ihb =>
      obtain ⟨c, hc, hc'⟩ := iha
      obtain ⟨d, hd, hd'⟩ := ihb
      refine ⟨L.add c d, by simp [Expr.run, hc, hd, bind, Except.bind, add], ?_⟩
      rw [hL.dec_add, hc', hd', Expr.value, ← Int.add_emod]
    | addP r a v iha =>
      obtain ⟨c, hc, hc'⟩ := iha
      refine ⟨L.add c (L.enc r v), by simp [Expr.run, hc, bind, Except.bind, add], ?_⟩
      rw [hL.dec_add, hc', hL.dec_enc, Expr.value, ← Int.add_emod]
    | mulP a v iha =>
      obtain ⟨c, hc, hc'⟩ := iha
      refine ⟨L.mul c v, by simp [Expr.run, hc, bind, Except.bind, mul], ?_⟩
      rw [hL.dec_mul, hc', Expr.value, Int.mul_emod, Int.emod_emod_of_dvd _ (dvd_refl _), ← Int.mul_emod]
  obtain ⟨c, h1, h2⟩ := key
  exact ⟨c, h1, by simp [decrypt, h2]⟩

/-- **C61**: the value is recovered exactly when it lies in the plaintext range `[0, n)`. -/
theorem expr_exact {L : PheLib C} (hL : L.Ok) (e : Expr) (h0 : 0 ≤ e.value) (hn : e.value < L.n) :
    ∃ c, e.run L = .ok (.ct c) ∧ decrypt L (.ct c) = .ok (.int e.value) := by
  obtain ⟨c, h1, h2⟩ := expr_decrypts hL e
  exact ⟨c, h1, by rw [h2, Int.emod_eq_of_lt h0 hn]⟩

theorem roundNat_small {n : Nat} (h : n < 2 ^ 53) : roundNat n = n := by unfold roundNat; rw [if_pos h]

theorem roundNat_dvd {n : Nat} (h : 2 ^ (Nat.log 2 n - 52) ∣ n) : roundNat n = n := by
  unfold roundNat
  split
  · rfl
  · have hr : n % 2 ^ (Nat.log 2 n - 52) = 0 := Nat.mod_eq_zero_of_dvd h
    have hp : 0 < 2 ^ (Nat.log 2 n - 52) := Nat.two_pow_pos _
    simp only [hr, Nat.mul_zero, Nat.not_lt_zero, false_or]
    rw [if_neg (by intro h; omega)]
    exact Nat.div_mul_cancel h

/-- a number with at most 53 significant bits is not rounded -/
theorem roundNat_shift {m k : Nat} (h : m ≤ 2 ^ 53) : roundNat (m * 2 ^ k) = m * 2 ^ k := by
  rcases Nat.eq_zero_or_pos m with rfl | hm
  · simp [roundNat]
  apply roundNat_dvd
  rcases Nat.lt_or_eq_of_le h with h | rfl
  · have hlt : m * 2 ^ k < 2 ^ (53 + k) := by rw [Nat.pow_add]; exact Nat.mul_lt_mul_of_pos_right h (Nat.two_pow_pos k)
    have hne : m * 2 ^ k ≠ 0 := Nat.ne_of_gt (Nat.mul_pos hm (Nat.two_pow_pos k))
    have hl := Nat.log_lt_of_lt_pow hne hlt
    exact Dvd.dvd.mul_left (Nat.pow_dvd_pow 2 (by omega)) m
  · rw [← Nat.pow_add, Nat.log_pow (by decide)]
    exact Nat.pow_dvd_pow 2 (by omega)

/-- rounding does not drop below a power of two -/
theorem roundNat_ge {n k : Nat} (hk : 53 ≤ k) (h : 2 ^ k ≤ n) : 2 ^ k ≤ roundNat n := by
  have h53 : ¬ n < 2 ^ 53 := Nat.not_lt.mpr (Nat.le_trans (Nat.pow_le_pow_right (by decide) hk) h)
  have hn : n ≠ 0 := by rintro rfl; exact h53 (by decide)
  have hl : k ≤ Nat.log 2 n := Nat.le_log_of_pow_le (by decide) h
  unfold roundNat
  rw [if_neg h53]
  generalize hs : Nat.log 2 n - 52 = s
  have hq : 2 ^ 52 ≤ n / 2 ^ s := by
    rw [Nat.le_div_iff_mul_le (Nat.two_pow_pos s), ← Nat.pow_add]
    have : 52 + s = Nat.log 2 n := by omega
    rw [this]
    exact Nat.pow_log_le_self 2 hn
  have hle : 2 ^ k ≤ 2 ^ 52 * 2 ^ s := by
    rw [← Nat.pow_add]; exact Nat.pow_le_pow_right (by decide) (by omega)
  refine Nat.le_trans hle (Nat.mul_le_mul_right _ ?_)
  split <;> omega

theorem floatLimit_gt : 2 ^ 53 < floatLimit := by unfold floatLimit; exact Nat.pow_lt_pow_right (by decide) (by decide)
theorem pow_double (k : Nat) : 2 ^ (k + 1) = 2 ^ k + 2 ^ k := by rw [Nat.pow_succ']; omega
theorem floatLimit_double : 2 ^ 1025 = floatLimit + floatLimit := by unfold floatLimit; exact pow_double 1024


theorem floatOfInt_exact {m k : Nat} (h : m ≤ 2 ^ 53) (hb : m * 2 ^ k < floatLimit) :
    floatOfInt ((m : Int) * 2 ^ k) = .ok ((m : Int) * 2 ^ k) := by
  have he : ((m : Int) * 2 ^ k) = ((m * 2 ^ k : Nat) : Int) := by push_cast; rfl
  rw [he]
  simp only [floatOfInt, Int.natAbs_natCast, roundNat_shift h, if_pos hb]
  rw [if_neg (by omega)]

/-- **C61**: the decoded result of a program whose value is `m * 2 ^ j` with `m` of at most 53 bits (in particular any value
below `2 ^ 53`), inside the plaintext range and below the float range, is exactly that value divided by the scale. -/
theorem expr_decodes {L : PheLib C} (hL : L.Ok) (e : Expr) (k m j : Nat) (hm : m ≤ 2 ^ 53) (hv : e.value = (m : Int) * 2 ^ j)
    (hn : e.value < L.n) (hb : m * 2 ^ j < floatLimit) :
    ∃ c, e.run L = .ok c ∧ decryptAuto L c (.encoder k) = .ok (.flt ((m : ℚ) * 2 ^ j / 2 ^ k)) := by
  have h0 : 0 ≤ e.value := by rw [hv]; positivity
  obtain ⟨c, h1, h2⟩ := expr_exact hL e h0 hn
  refine ⟨_, h1, ?_⟩
  simp only [decryptAuto, h2, bind, Except.bind, decode]
  rw [hv, floatOfInt_exact hm hb]
  simp

/-- **C61**: integers of at most 53 bits are recovered exactly through encode, encrypt, decrypt and decode, when the encoded
value lies in the plaintext range. -/
theorem int_roundtrip_partial {L : PheLib C} (hL : L.Ok) (r k m : Nat) (hm : m ≤ 2 ^ 53) (hn : m * 2 ^ k < L.n)
    (hb : m * 2 ^ k < floatLimit) :
    ∃ c, encryptAuto L r (.int m) (.encoder k) = .ok c ∧ decryptAuto L c (.encoder k) = .ok (.flt (m : ℚ)) := by
  have hm' : m * 2 ^ 0 < floatLimit := by
    rw [Nat.pow_zero, Nat.mul_one]
    exact Nat.lt_of_le_of_lt (Nat.le_mul_of_pos_right m (Nat.two_pow_pos k)) hb
  have h1 := floatOfInt_exact (k := 0) hm hm'
  simp only [pow_zero, mul_one] at h1
  have he : encode (C := C) (.int m) (.encoder k) = .ok (.int ((m : Int) * 2 ^ k)) := by
    simp only [encode, h1, Int.natAbs_natCast, if_pos hb]
  obtain ⟨c, hc, hd⟩ := expr_decodes hL (.enc r ((m : Int) * 2 ^ k)) k m k hm rfl (by simp only [Expr.value]; exact_mod_cast hn) hb
  refine ⟨c, ?_, ?_⟩
  · simp only [encryptAuto, he, bind, Except.bind]
    exact hc
  · rw [hd, mul_div_assoc, div_self (by positivity), mul_one]

theorem truncRat_nonneg {x : ℚ} (hx : 0 ≤ x) : truncRat x = ⌊x⌋ := by
  rw [truncRat, Int.tdiv_eq_ediv_of_nonneg (Rat.num_nonneg.mpr hx)]
  exact (Rat.floor_def x).symm

/-- **C61**: a non-negative float whose encoding is below `2 ^ 53` comes back rounded down to a multiple of `2 ^ -k`. -/
theorem float_roundtrip_partial {L : PheLib C} (hL : L.Ok) (r k : Nat) (x : ℚ) (h0 : 0 ≤ x) (hx : x * 2 ^ k < 2 ^ 53)
    (hn : x * 2 ^ k < L.n) :
    ∃ c y, encryptAuto L r (.flt x) (.encoder k) = .ok c ∧ decryptAuto L c (.encoder k) = .ok (.flt y) ∧
      y ≤ x ∧ x - y < 1 / 2 ^ k ∧ ∃ z : Int, y = z / 2 ^ k := by
  have hk : (0 : ℚ) < 2 ^ k := by positivity
  have hp : 0 ≤ x * 2 ^ k := mul_nonneg h0 hk.le
  have hf0 : 0 ≤ ⌊x * 2 ^ k⌋ := Int.floor_nonneg.mpr hp
  obtain ⟨m, hm⟩ := Int.eq_ofNat_of_zero_le hf0
  have hfl : ((⌊x * 2 ^ k⌋ : Int) : ℚ) ≤ x * 2 ^ k := Int.floor_le _
  have hmr : (m : ℚ) ≤ x * 2 ^ k := by rw [hm] at hfl; exact_mod_cast hfl
  have hm53 : m < 2 ^ 53 := by
    have : (m : ℚ) < ((2 ^ 53 : Nat) : ℚ) := by push_cast; exact lt_of_le_of_lt hmr hx
    exact_mod_cast this
  have hmn : m < L.n := by
    have : (m : ℚ) < (L.n : ℚ) := lt_of_le_of_lt hmr hn
    exact_mod_cast this
  have hb : m * 2 ^ 0 < floatLimit := by
    rw [Nat.pow_zero, Nat.mul_one]
    exact Nat.lt_trans hm53 floatLimit_gt
  have he : encode (C := C) (.flt x) (.encoder k) = .ok (.int (m : Int)) := by
    have hlt : |x| * 2 ^ k < (floatLimit : ℚ) := by
      rw [abs_of_nonneg h0]
      refine lt_trans hx ?_
      have : ((2 ^ 53 : Nat) : ℚ) < (floatLimit : ℚ) := by exact_mod_cast floatLimit_gt
      exact_mod_cast this
    simp only [encode, if_pos hlt, truncRat_nonneg hp, hm]
  obtain ⟨c, hc, hd⟩ := expr_decodes hL (.enc r (m : Int)) k m 0 hm53.le (by simp [Expr.value]) (by simp only [Expr.value]; exact_mod_cast hmn) hb
  refine ⟨c, (m : ℚ) * 2 ^ 0 / 2 ^ k, ?_, hd, ?_, ?_, m, by simp⟩
  · simp only [encryptAuto, he, bind, Except.bind]
    exact hc
  · rw [pow_zero, mul_one, div_le_iff₀ hk]; exact hmr
  · have hlt : x * 2 ^ k < (m : ℚ) + 1 := by
      have := Int.lt_floor_add_one (x * 2 ^ k)
      rw [hm] at this
      exact_mod_cast this
    rw [pow_zero, mul_one, lt_div_iff₀ hk, sub_mul, div_mul_cancel₀ _ hk.ne']
    linarith

/-! ## Violations -/

/-- **C61 violated** for negative numbers: whatever the key, a negative encoded value comes back as `n` minus its absolute
value. -/
theorem negative_violated {L : PheLib C} (hL : L.Ok) (r : Nat) (v : Int) (h : v < 0) (hn : -v < L.n) :
    ∃ c, (Expr.enc r v).run L = .ok (.ct c) ∧ decrypt L (.ct c) = .ok (.int (L.n + v)) ∧ (L.n : Int) + v ≠ v := by
  obtain ⟨c, h1, h2⟩ := expr_decrypts hL (.enc r v)
  refine ⟨c, h1, ?_, by have := hL.pos; omega⟩
  rw [h2, Expr.value, ← Int.add_emod_left, Int.emod_eq_of_lt (by omega) (by omega)]

/-- With a modulus of more than 1025 bits (the default key has 2048), decoding a negative number raises `OverflowError`. -/
theorem negative_decode_violated {L : PheLib C} (hL : L.Ok) (r k : Nat) (v : Int) (h : v < 0) (hv : -v ≤ floatLimit)
    (hn : 2 ^ 1025 ≤ L.n) : ∃ c, (Expr.enc r v).run L = .ok c ∧ decryptAuto L c (.encoder k) = .error .overflow := by
  rw [floatLimit_double] at hn
  have hpos := floatLimit_gt
  have hn' : -v < L.n := by omega
  obtain ⟨c, h1, h2, _⟩ := negative_violated hL r v h hn'
  refine ⟨_, h1, ?_⟩
  simp only [decryptAuto, h2, bind, Except.bind, decode]
  have hge : floatLimit ≤ ((L.n : Int) + v).natAbs := by omega
  have hr : floatLimit ≤ roundNat ((L.n : Int) + v).natAbs := by
    unfold floatLimit at hge ⊢
    exact roundNat_ge (by decide) hge
  simp only [floatOfInt]
  rw [if_neg (Nat.not_lt.mpr hr)]

/-- **C61 violated** for integers of more than 53 bits: `2 ^ 53 + 1` is encoded as `2 ^ 53`, although the plaintext range is
far larger. -/
theorem large_int_violated (k : Nat) (hk : k < 900) :
    encode (C := C) (.int (2 ^ 53 + 1)) (.encoder k) = encode (C := C) (.int (2 ^ 53)) (.encoder k) ∧
    encode (C := C) (.int (2 ^ 53)) (.encoder k) = .ok (.int (2 ^ 53 * 2 ^ k)) := by
  have e1 : floatOfInt (2 ^ 53 + 1) = .ok (2 ^ 53) := by decide +kernel
  have e2 : floatOfInt (2 ^ 53) = .ok (2 ^ 53) := by decide +kernel
  have hb : ((2 : Int) ^ 53).natAbs * 2 ^ k < floatLimit := by
    rw [show ((2 : Int) ^ 53).natAbs = 2 ^ 53 from rfl, ← Nat.pow_add]
    unfold floatLimit
    exact Nat.pow_lt_pow_right (by decide) (by omega)
  simp only [encode, e1, e2, if_pos hb, and_self]

/-- **C61 violated** for products: `mul_plain` multiplies the scales and `decode` divides by one of them, so the decoded
product of two encoded ints is `2 ^ k` times too large. -/
theorem product_scale_violated {L : PheLib C} (hL : L.Ok) (r k a b : Nat) (hab : a * b ≤ 2 ^ 53)
    (hn : a * b * 2 ^ (2 * k) < L.n) (hb : a * b * 2 ^ (2 * k) < floatLimit) :
    ∃ c, (Expr.mulP (.enc r (a * 2 ^ k)) (b * 2 ^ k)).run L = .ok c ∧
      decryptAuto L c (.encoder k) = .ok (.flt ((a : ℚ) * b * 2 ^ k)) := by
  obtain ⟨c, h1, h2⟩ := expr_decodes hL (.mulP (.enc r (a * 2 ^ k)) (b * 2 ^ k)) k (a * b) (2 * k) hab
    (by simp only [Expr.value]; push_cast; ring)
    (by
      have : ((a * b * 2 ^ (2 * k) : Nat) : Int) < L.n := by exact_mod_cast hn
      simp only [Expr.value]
      push_cast at this
      calc (a : Int) * 2 ^ k * (b * 2 ^ k) = a * b * 2 ^ (2 * k) := by ring
        _ < _ := this) hb
  refine ⟨c, h1, ?_⟩
  rw [h2]
  congr 2
  have hk : (2 : ℚ) ^ k ≠ 0 := by positivity
  rw [div_eq_iff hk]
  push_cast
  ring

/-- **C61 violated** for tensor constants: the handlers compute on bare numbers, but the runtime passes `TensorValue`s
(which have no arithmetic), so encoding a tensor element always raises. -/
theorem tensor_encode_violated (k : Nat) : encode (C := C) .tensor (.encoder k) = .error .type := rfl

/-- `max_value` is not checked and `dtype` not used: encoders differing only in these are the same. -/
theorem encoder_ignores_range (d d' : String) (k : Nat) (m m' : Option Int) :
    createEncoder (C := C) d k m = createEncoder d' k m' := rfl

/-! ## Non-vacuity -/

/-- a (transparent) scheme meeting the contract -/
def toyPhe (n : Nat) : PheLib Int := ⟨n, fun _ v => v % n, fun c => c, fun a b => (a + b) % n, fun a k => (a * k) % n⟩

theorem toyPhe_ok (n : Nat) (h : 0 < n) : (toyPhe n).Ok :=
  ⟨h, fun _ _ => rfl, fun _ _ => rfl, fun _ _ => rfl⟩

example : (toyPhe 1000003).Ok ∧ (Expr.addP 1 (.mulP (.addC (.enc 0 5) (.enc 1 7)) 3) (-6)).value = 30 :=
  ⟨toyPhe_ok _ (by decide), rfl⟩
example : (toyPhe (2 ^ 2047)).Ok ∧ 2 ^ 1025 ≤ (toyPhe (2 ^ 2047)).n :=
  ⟨toyPhe_ok _ (Nat.two_pow_pos _), Nat.pow_le_pow_right (by decide) (by decide)⟩
example : (3.25 : ℚ) * 2 ^ 16 < 2 ^ 53 ∧ (3.25 : ℚ) * 2 ^ 16 < (toyPhe (2 ^ 60)).n := by
  constructor <;> norm_num [toyPhe]

end Verif.Phe
