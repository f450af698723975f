import Verif.Serde.Props
import Verif.Tool.Sort
/-!
# Properties C01 (constructor checks) and C69: which types can exist, and which bytes decode
-/
namespace Verif.Serde
open Verif.Tool

/-! ## Specification: the documented constructor conditions -/

/-- Documented conditions of the type constructors, written without the code's bit tricks: integer widths are powers of
two; floats are 16, 32, 64 or 128 bits wide; tensor dimensions and table row counts are positive or −1 (unknown); vectors
have a positive number of scalar elements; custom kinds are not blank; BFV types are over vectors. -/
def CtorSpec : Ty → Prop
  | .int b _ => ∃ k : Nat, b = 2 ^ k
  | .float b => b = 16 ∨ b = 32 ∨ b = 64 ∨ b = 128
  | .complex b => b = 16 ∨ b = 32 ∨ b = 64 ∨ b = 128
  | .tensor _ sh => ∀ d ∈ sh, d = -1 ∨ 0 < d
  | .vector e n => ((∃ b s, e = .int b s) ∨ (∃ b, e = .float b) ∨ (∃ b, e = .complex b) ∨
      (∃ a, e = .phePlain a) ∨ (∃ a, e = .pheCipher a)) ∧ 0 < n
  | .table _ n => n = -1 ∨ 0 < n
  | .custom k => ∃ c ∈ k.toList, c.isWhitespace = false
  | .bfvPlain v => ∃ e n, v = .vector e n
  | .bfvCipher v => ∃ e n, v = .vector e n
  | _ => True

theorem pow2_bits (n : Nat) (h : 0 < n) : n &&& (n - 1) = 0 ↔ ∃ k, n = 2 ^ k := by
  induction n using Nat.strongRecOn with
  | _ n ih =>
    have hd : (n &&& (n - 1)) / 2 = n / 2 &&& (n - 1) / 2 := Nat.and_div_two
    have hm : (n &&& (n - 1)) % 2 = 0 := by
      have := @Nat.and_mod_two_eq_one n (n - 1)
      omega
    rcases Nat.mod_two_eq_zero_or_one n with he | ho
    · have h2 : (n - 1) / 2 = n / 2 - 1 := by omega
      rw [h2] at hd
      have := ih (n / 2) (by omega) (by omega)
      constructor
      · intro h0
        rw [h0] at hd
        obtain ⟨k, hk⟩ := this.mp (by omega)
        exact ⟨k + 1, by rw [Nat.pow_succ]; omega⟩
      · rintro ⟨k, hk⟩
        cases k with
        | zero => simp at hk; omega
        | succ k =>
          rw [Nat.pow_succ] at hk
          have := this.mpr ⟨k, by omega⟩
          omega
    · have h2 : (n - 1) / 2 = n / 2 := by omega
      rw [h2, Nat.and_self] at hd
      constructor
      · intro h0
        exact ⟨0, by rw [h0] at hd; simp; omega⟩
      · rintro ⟨k, hk⟩
        cases k with
        | zero => simp at hk; subst hk; rfl
        | succ k => rw [Nat.pow_succ] at hk; omega

theorem bitwidthOk_iff (b : Int) : bitwidthOk b = true ↔ ∃ k : Nat, b = 2 ^ k := by
  simp only [bitwidthOk, Bool.and_eq_true, decide_eq_true_eq, beq_iff_eq]
  constructor
  · rintro ⟨h0, h1⟩
    obtain ⟨k, hk⟩ := (pow2_bits b.toNat (by omega)).mp h1
    refine ⟨k, ?_⟩
    have : b = (b.toNat : Int) := by omega
    rw [this, hk]; simp
  · rintro ⟨k, rfl⟩
    have h0 : (0 : Int) < 2 ^ k := by
      have : (0 : Int) < ((2 ^ k : Nat) : Int) := Int.natCast_pos.mpr (Nat.two_pow_pos k)
      simpa using this
    have h1 : ((2 : Int) ^ k).toNat = 2 ^ k := by
      have : ((2 : Int) ^ k) = ((2 ^ k : Nat) : Int) := by simp
      rw [this, Int.toNat_natCast]
    exact ⟨h0, by rw [h1]; exact (pow2_bits _ (Nat.two_pow_pos k)).mpr ⟨k, rfl⟩⟩

theorem dimOk_iff (d : Int) : dimOk d = true ↔ d = -1 ∨ 0 < d := by
  simp only [dimOk, Bool.not_eq_true', Bool.or_eq_false_iff, decide_eq_false_iff_not, beq_eq_false_iff_ne]
  omega

/-- C01, constructor checks: an object of each type class can be built exactly under the documented conditions. -/
theorem type_ctor_accepts_iff (t : Ty) : t.localOk = true ↔ CtorSpec t := by
  cases t
  case int => exact bitwidthOk_iff _
  case float => simp [Ty.localOk, CtorSpec, floatOk, or_assoc]
  case complex => simp [Ty.localOk, CtorSpec, floatOk, or_assoc]
  case tensor => simp [Ty.localOk, CtorSpec, dimOk_iff]
  case vector e n => cases e <;> simp [Ty.localOk, CtorSpec, Ty.isScalar]
  case table => simp [Ty.localOk, CtorSpec, dimOk_iff]
  case custom k => simp [Ty.localOk, CtorSpec, blank]
  case bfvPlain v => cases v <;> simp [Ty.localOk, CtorSpec, Ty.isVector]
  case bfvCipher v => cases v <;> simp [Ty.localOk, CtorSpec, Ty.isVector]
  all_goals simp [Ty.localOk, CtorSpec]

example : CtorSpec (.int 4096 true) ∧ ¬ CtorSpec (.tensor (.int 8 true) [2, 0]) ∧
    (Ty.int 4096 true).localOk = true ∧ (Ty.int 0 true).localOk = false ∧ (Ty.vector (.float 32) 1).localOk = true ∧
    (Ty.vector (.custom "x") 1).localOk = false := by
  refine ⟨⟨12, by decide⟩, ?_, by decide, by decide, by decide, by decide⟩
  simp only [CtorSpec]
  intro h
  have := h 0 (by simp)
  omega

/-! ## Specification: every component satisfies its constructor -/

mutual
/-- every component of the type satisfies its constructor's documented conditions, and table columns are distinct -/
def Sound : Ty → Prop
  | .tensor e sh => Sound e ∧ CtorSpec (.tensor e sh)
  | .vector e n => Sound e ∧ CtorSpec (.vector e n)
  | .table sch n => SoundCols sch ∧ (sch.map Prod.fst).Nodup ∧ CtorSpec (.table sch n)
  | .ss p _ => Sound p
  | .mp v _ => Sound v
  | .bfvPlain v => Sound v ∧ CtorSpec (.bfvPlain v)
  | .bfvCipher v => Sound v ∧ CtorSpec (.bfvCipher v)
  | .int b s => CtorSpec (.int b s)
  | .float b => CtorSpec (.float b)
  | .complex b => CtorSpec (.complex b)
  | .custom k => CtorSpec (.custom k)
  | _ => True
/-- see `Sound` -/
def SoundCols : List (String × Ty) → Prop
  | [] => True
  | (_, t) :: r => Sound t ∧ SoundCols r
end

mutual
theorem valid_iff_sound (t : Ty) : t.valid = true ↔ Sound t := by
  cases t with
  | tensor e sh => simp only [Ty.valid, Sound, Bool.and_eq_true, valid_iff_sound e, type_ctor_accepts_iff]
  | vector e sh => simp only [Ty.valid, Sound, Bool.and_eq_true, valid_iff_sound e, type_ctor_accepts_iff]
  | table sch n =>
    simp only [Ty.valid, Sound, Bool.and_eq_true, validSchema_iff_sound sch, type_ctor_accepts_iff, and_assoc,
      decide_eq_true_eq]
  | ss p e => simp only [Ty.valid, Sound, valid_iff_sound p]
  | mp p e => simp only [Ty.valid, Sound, valid_iff_sound p]
  | bfvPlain v =>
    have := type_ctor_accepts_iff (.bfvPlain v)
    simp only [Ty.localOk] at this
    simp only [Ty.valid, Sound, Bool.and_eq_true, valid_iff_sound v, this]
  | bfvCipher v =>
    have := type_ctor_accepts_iff (.bfvCipher v)
    simp only [Ty.localOk] at this
    simp only [Ty.valid, Sound, Bool.and_eq_true, valid_iff_sound v, this]
  | int => simp only [Ty.valid, Sound, type_ctor_accepts_iff]
  | float => simp only [Ty.valid, Sound, type_ctor_accepts_iff]
  | complex => simp only [Ty.valid, Sound, type_ctor_accepts_iff]
  | custom => simp only [Ty.valid, Sound, type_ctor_accepts_iff]
  | _ => simp [Ty.valid, Sound]
theorem validSchema_iff_sound (sch : List (String × Ty)) : validSchema sch = true ↔ SoundCols sch := by
  match sch with
  | [] => simp [validSchema, SoundCols]
  | (c, t) :: r => simp only [validSchema, SoundCols, Bool.and_eq_true, valid_iff_sound t, validSchema_iff_sound r]
end

theorem mk_ok {t t' : Ty} (h : mk t = some t') : t' = t ∧ t.localOk = true := by
  simp only [mk] at h
  split at h
  · rename_i hl; cases h; exact ⟨rfl, hl⟩
  · cases h

theorem mapFields_valid (rec : Json → Option Ty) (js : List (String × Json)) (sch : List (String × Ty))
    (hrec : ∀ p ∈ js, ∀ t, rec p.2 = some t → t.valid = true) (h : mapFields rec js = some sch) :
    validSchema sch = true ∧ sch.map Prod.fst = js.map Prod.fst := by
  induction js generalizing sch with
  | nil => simp only [mapFields, Option.some.injEq] at h; subst h; exact ⟨rfl, rfl⟩
  | cons p r ih =>
    obtain ⟨c, j⟩ := p
    simp only [mapFields] at h
    split at h; · cases h
    rename_i y hy
    split at h; · cases h
    rename_i ys hys
    cases h
    obtain ⟨h1, h2⟩ := ih ys (fun p hp => hrec p (List.mem_cons_of_mem _ hp)) hys
    simp [validSchema, h1, h2, hrec (c, j) (by simp) y hy]

theorem bind_some {α β : Type} {x : Option α} {f : α → Option β} {b : β} (h : (x >>= f) = some b) :
    ∃ a, x = some a ∧ f a = some b := by
  cases x with
  | none => cases h
  | some a => exact ⟨a, rfl, h⟩

theorem lookup_distinct {fs : List (String × Json)} (hd : distinctFields fs) {k : String} {v : Json}
    (h : lookup k fs = some v) : DistinctKeys v := by
  induction fs with
  | nil => cases h
  | cons p r ih =>
    obtain ⟨c, j⟩ := p
    simp only [lookup] at h
    simp only [distinctFields] at hd
    split at h
    · cases h; exact hd.1
    · exact ih hd.2 h

theorem ite_some {α : Type} {c : Prop} [Decidable c] {a b : Option α} {t : α} (h : (if c then a else b) = some t) :
    (c ∧ a = some t) ∨ (¬ c ∧ b = some t) := by
  by_cases hc : c
  · rw [if_pos hc] at h; exact .inl ⟨hc, h⟩
  · rw [if_neg hc] at h; exact .inr ⟨hc, h⟩

theorem tyClass_valid (rec : Json → Option Ty) (hrec : ∀ j, DistinctKeys j → ∀ t, rec j = some t → t.valid = true)
    (kind : String) (fs : List (String × Json)) (hd : distinctFields fs) (t : Ty)
    (h : tyClassFromJson rec kind fs = some t) : t.valid = true := by
  unfold tyClassFromJson at h
  rcases ite_some h with ⟨_, h⟩ | ⟨_, h⟩
  · obtain ⟨b, _, h⟩ := bind_some h
    obtain ⟨s, _, h⟩ := bind_some h
    obtain ⟨rfl, hl⟩ := mk_ok h
    simpa [Ty.valid] using hl
  rcases ite_some h with ⟨_, h⟩ | ⟨_, h⟩
  · obtain ⟨b, _, h⟩ := bind_some h
    obtain ⟨rfl, hl⟩ := mk_ok h
    simpa [Ty.valid] using hl
  rcases ite_some h with ⟨_, h⟩ | ⟨_, h⟩
  · obtain ⟨j, hj, h⟩ := bind_some h
    obtain ⟨t', ht, h⟩ := bind_some h
    split at h
    · obtain ⟨rfl, hl⟩ := mk_ok h
      simpa [Ty.valid] using hl
    · cases h
  rcases ite_some h with ⟨_, h⟩ | ⟨_, h⟩
  · obtain ⟨j, hj, h⟩ := bind_some h
    obtain ⟨t', ht, h⟩ := bind_some h
    obtain ⟨sh, _, h⟩ := bind_some h
    obtain ⟨rfl, hl⟩ := mk_ok h
    simp [Ty.valid, hl, hrec j (lookup_distinct hd hj) t' ht]
  rcases ite_some h with ⟨_, h⟩ | ⟨_, h⟩
  · obtain ⟨j, hj, h⟩ := bind_some h
    obtain ⟨t', ht, h⟩ := bind_some h
    obtain ⟨sh, _, h⟩ := bind_some h
    obtain ⟨rfl, hl⟩ := mk_ok h
    simp [Ty.valid, hl, hrec j (lookup_distinct hd hj) t' ht]
  rcases ite_some h with ⟨_, h⟩ | ⟨_, h⟩
  · split at h
    · rename_i js hjs
      have hdj := lookup_distinct hd hjs
      simp only [DistinctKeys] at hdj
      obtain ⟨sch, hs, h⟩ := bind_some h
      obtain ⟨h1, h2⟩ := mapFields_valid rec js sch
        (fun p hp t ht => hrec p.2 (distinctFields_mem hdj.2 p hp) t ht) hs
      have h3 : (sch.map Prod.fst).Nodup := by rw [h2]; exact hdj.1
      split at h
      · obtain ⟨rfl, hl⟩ := mk_ok h; simp [Ty.valid, hl, h1, h3]
      · obtain ⟨rfl, hl⟩ := mk_ok h; simp [Ty.valid, hl, h1, h3]
      · cases h
    · cases h
  rcases ite_some h with ⟨_, h⟩ | ⟨_, h⟩
  · obtain ⟨k, _, h⟩ := bind_some h
    obtain ⟨rfl, hl⟩ := mk_ok h
    simpa [Ty.valid] using hl
  rcases ite_some h with ⟨_, h⟩ | ⟨_, h⟩
  · obtain ⟨j, hj, h⟩ := bind_some h
    obtain ⟨t', ht, h⟩ := bind_some h
    have := hrec j (lookup_distinct hd hj) t' ht
    split at h
    · obtain ⟨rfl, hl⟩ := mk_ok h; simpa [Ty.valid] using this
    · obtain ⟨rfl, hl⟩ := mk_ok h; simpa [Ty.valid] using this
    · cases h
  rcases ite_some h with ⟨_, h⟩ | ⟨_, h⟩
  · obtain ⟨j, hj, h⟩ := bind_some h
    obtain ⟨t', ht, h⟩ := bind_some h
    have := hrec j (lookup_distinct hd hj) t' ht
    split at h
    · obtain ⟨rfl, hl⟩ := mk_ok h; simpa [Ty.valid] using this
    · obtain ⟨ps, _, h⟩ := bind_some h
      obtain ⟨rfl, hl⟩ := mk_ok h; simpa [Ty.valid] using this
    · cases h
  iterate 6
    rcases ite_some h with ⟨_, h⟩ | ⟨_, h⟩
    · obtain ⟨j, hj, h⟩ := bind_some h
      obtain ⟨rfl, hl⟩ := mk_ok h
      simp [Ty.valid]
  rcases ite_some h with ⟨_, h⟩ | ⟨_, h⟩
  · obtain ⟨j, hj, h⟩ := bind_some h
    obtain ⟨n, _, h⟩ := bind_some h
    obtain ⟨rfl, hl⟩ := mk_ok h
    simp [Ty.valid]
  iterate 2
    rcases ite_some h with ⟨_, h⟩ | ⟨_, h⟩
    · obtain ⟨j, hj, h⟩ := bind_some h
      obtain ⟨t', ht, h⟩ := bind_some h
      obtain ⟨rfl, hl⟩ := mk_ok h
      simp only [Ty.localOk] at hl
      simp [Ty.valid, hl, hrec j (lookup_distinct hd hj) t' ht]
  rcases ite_some h with ⟨_, h⟩ | ⟨_, h⟩
  · obtain ⟨n, _, h⟩ := bind_some h
    obtain ⟨rfl, hl⟩ := mk_ok h
    simp [Ty.valid]
  rcases ite_some h with ⟨_, h⟩ | ⟨_, h⟩
  · cases h; simp [Ty.valid]
  rcases ite_some h with ⟨_, h⟩ | ⟨_, h⟩
  · cases h; simp [Ty.valid]
  · cases h

theorem tyFromJsonF_valid (n : Nat) (j : Json) (hj : DistinctKeys j) (t : Ty) (h : tyFromJsonF n j = some t) :
    t.valid = true := by
  induction n generalizing j t with
  | zero => simp [tyFromJsonF] at h
  | succ n ih =>
    cases j with
    | obj fs =>
      simp only [tyFromJsonF] at h
      simp only [DistinctKeys] at hj
      split at h
      · exact tyClass_valid _ (fun j hj t ht => ih j hj t ht) _ _ hj.2 _ h
      · cases h
    | _ => simp [tyFromJsonF] at h

/-- C69. Decoding a type is safe on every JSON document, whoever wrote it: whatever document is given, either decoding
raises or the resulting type satisfies every documented constructor condition, in all its components. -/
theorem type_from_any_json_sound (j : Json) (hj : DistinctKeys j) (t : Ty) (h : tyFromJson j = some t) : Sound t :=
  (valid_iff_sound t).mp (tyFromJsonF_valid _ j hj t h)

/-- C69: an adversarial document (a vector of size 0 inside a party type) is rejected, its repaired version accepted. -/
example : tyFromJson (.obj [("_kind", .str "mplang.MPType"), ("parties", .null), ("value_type",
      .obj [("_kind", .str "mplang.VectorType"), ("size", .num 0), ("element_type",
        .obj [("_kind", .str "mplang.FloatType"), ("bitwidth", .num 32)])])]) = none ∧
    tyFromJson (.obj [("_kind", .str "mplang.MPType"), ("parties", .null), ("value_type",
      .obj [("_kind", .str "mplang.VectorType"), ("size", .num 1), ("element_type",
        .obj [("_kind", .str "mplang.FloatType"), ("bitwidth", .num 32)])])]) =
      some (.mp (.vector (.float 32) 1) none) := ⟨by rfl, by rfl⟩

/-- C69: the round trip of C01 is stated for exactly the sound types. -/
theorem type_json_roundtrip_sound (t : Ty) (hs : Sound t) (j : Json) (h : tyToJson t = some j) :
    tyFromJson j = some t := type_json_roundtrip t ((valid_iff_sound t).mpr hs) j h

example : Sound sampleTy := (valid_iff_sound _).mp (by decide)

/-! ## base64 -/

/-- the 64 characters of the base64 alphabet (RFC 4648) -/
def b64Alphabet : List Char := "ABCDEFGHIJKLMNOPQRSTUVWXYZabcdefghijklmnopqrstuvwxyz0123456789+/".toList

theorem b64Val_isSome_iff (c : Char) : (b64Val c).isSome = true ↔ c ∈ b64Alphabet := by
  have key : ∀ n : Nat, n < 128 → ((b64Val (Char.ofNat n)).isSome = true ↔ Char.ofNat n ∈ b64Alphabet) := by
    decide +kernel
  have hall : ∀ c ∈ b64Alphabet, c.toNat < 128 := by decide +kernel
  have hc : c = Char.ofNat c.toNat := by simp
  by_cases hn : c.toNat < 128
  · rw [hc]; exact key _ hn
  · constructor
    · intro h
      simp only [b64Val] at h
      repeat' (split at h; · omega)
      cases h
    · intro h; exact absurd (hall c h) hn

/-- C02: line breaks and other foreign ASCII characters in base64 text do not change what it decodes to. -/
theorem b64dec_ignores_foreign (s : List Char) (h : ∀ c ∈ s, c.toNat < 128) :
    b64dec s = b64dec (s.filter fun c => c = '=' ∨ c ∈ b64Alphabet) := by
  have h1 : ∀ c ∈ s.filter (fun c => c = '=' ∨ c ∈ b64Alphabet), c.toNat < 128 := fun c hc => h c (List.mem_of_mem_filter hc)
  rw [b64dec, b64dec, if_pos (by simpa using h), if_pos (List.all_eq_true.mpr fun c hc => decide_eq_true (h1 c hc))]
  clear h h1
  have e : ∀ q l p : Nat, b64Loop q l p s = b64Loop q l p (s.filter fun c => c = '=' ∨ c ∈ b64Alphabet) := by
    induction s with
    | nil => intros; rfl
    | cons c r ih =>
      intro q l p
      by_cases hc : c = '='
      · subst hc
        simp only [List.filter, true_or, decide_true, b64Loop, if_true, ← ih]
      · cases hv : b64Val c with
        | none =>
          have hn : c ∉ b64Alphabet := by
            rw [← b64Val_isSome_iff, hv]; simp
          simp only [List.filter, hc, hn, false_or, decide_false, b64Loop, if_false, hv, ih]
        | some v =>
          have hn : c ∈ b64Alphabet := by
            rw [← b64Val_isSome_iff, hv]; rfl
          simp only [List.filter, hn, or_true, decide_true, b64Loop, hc, if_false, hv, ← ih]
  exact e 0 0 0

example : b64dec "AP8\nR".toList = some [0, 255, 17] ∧ b64dec "AP8".toList = none := by decide

end Verif.Serde
