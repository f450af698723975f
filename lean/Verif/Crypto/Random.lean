import Mathlib.Data.Set.Card
import Mathlib.Data.Fintype.Pi
import Mathlib.Data.Fintype.BigOperators
import Mathlib.Data.List.GetD
import Mathlib.Tactic.Ring
import Mathlib.Tactic.Linarith
/-!
# C97: random bits, tensors and scalars; C98: bits and bytes

`os.urandom` gives every byte string of the asked length equally often; so "uniform" is a count of the byte strings that lead to each
result.  (dialects/crypto.py:564-640; backends/crypto_impl.py:212-214, 712-723; libs/mpc/_utils.py:27-56.)
-/
namespace Verif.Crypto.Random

/-- Lists of length `m` with entries below `q`. -/
def Box (q m : Nat) : Set (List Nat) := {l | l.length = m ∧ ∀ x ∈ l, x < q}

/-! ## The code -/

/-- `jnp.unpackbits(b, bitorder="little")` -/
def unpackLittle (bs : List Nat) : List Nat := bs.flatMap fun b => (List.range 8).map fun i => b / 2 ^ i % 2

/-- `random_bits(n)` asks for this many bytes (dialects/crypto.py:632) -/
def bitBytes (n : Nat) : Nat := (n + 7) / 8

/-- `random_bits(n)` on the drawn bytes (dialects/crypto.py:612-640) -/
def randomBits (n : Nat) (raw : List Nat) : List Nat := (unpackLittle raw).take n

/-- The number of bytes of `random_tensor` (dialects/crypto.py:592-595): elements times item size -/
def tensorBytes (shape : List Nat) (itemsize : Nat) : Nat := shape.prod * itemsize

/-- The little-endian number of some bytes. -/
def number (q : Nat) : List Nat → Nat
  | [] => 0
  | d :: ds => d + q * number q ds

/-- `b.view(dtype)` for an unsigned (or, as bit pattern, any) element of `w` bytes (dialects/crypto.py:601-604) -/
def viewLittle (w : Nat) (raw : List Nat) : List Nat :=
  (List.range (raw.length / w)).map fun i => number 256 ((raw.drop (i * w)).take w)

/-- `int.from_bytes(os.urandom(32), "big") % N` (crypto_impl.py:212-214) -/
def randomScalar (N : Nat) (raw : List Nat) : Nat := number 256 raw.reverse % N

/-! ## Digits -/

/-- The `w` lowest digits of `v`, lowest first. -/
def digits (q : Nat) : Nat → Nat → List Nat
  | 0, _ => []
  | w + 1, v => v % q :: digits q w (v / q)

theorem digits_length (q w v : Nat) : (digits q w v).length = w := by
  induction w generalizing v with
  | zero => rfl
  | succ w ih => simp [digits, ih]

theorem digits_lt {q : Nat} (hq : 0 < q) (w v : Nat) : ∀ x ∈ digits q w v, x < q := by
  induction w generalizing v with
  | zero => simp [digits]
  | succ w ih =>
    intro x hx
    rcases List.mem_cons.1 hx with rfl | hx
    · exact Nat.mod_lt _ hq
    · exact ih _ x hx

theorem number_digits (q w v : Nat) (hv : v < q ^ w) : number q (digits q w v) = v := by
  induction w generalizing v with
  | zero => simp at hv; simp [digits, number, hv]
  | succ w ih =>
    rw [digits, number, ih]
    · exact Nat.mod_add_div v q
    · rw [Nat.pow_succ, Nat.mul_comm] at hv
      exact Nat.div_lt_of_lt_mul hv

theorem digits_number (q : Nat) (ds : List Nat) (h : ∀ x ∈ ds, x < q) : digits q ds.length (number q ds) = ds := by
  induction ds with
  | nil => rfl
  | cons d ds ih =>
    have hd := h d (List.mem_cons_self ..)
    have hq : 0 < q := by omega
    simp only [List.length_cons, digits, number]
    rw [Nat.add_mul_mod_self_left, Nat.mod_eq_of_lt hd, Nat.add_mul_div_left _ _ hq, Nat.div_eq_of_lt hd, Nat.zero_add,
      ih (fun x hx => h x (List.mem_cons_of_mem _ hx))]

theorem number_lt (q : Nat) (ds : List Nat) (h : ∀ x ∈ ds, x < q) : number q ds < q ^ ds.length := by
  induction ds with
  | nil => simp [number]
  | cons d ds ih =>
    have hd := h d (List.mem_cons_self ..)
    have hi := ih (fun x hx => h x (List.mem_cons_of_mem _ hx))
    simp only [List.length_cons, number, Nat.pow_succ]
    have : q * (number q ds + 1) ≤ q * q ^ ds.length := Nat.mul_le_mul_left q hi
    have e : q * (number q ds + 1) = q * number q ds + q := by ring
    have e' : q ^ ds.length * q = q * q ^ ds.length := by ring
    omega

theorem digits_eq_map (q w v : Nat) : digits q w v = (List.range w).map fun i => v / q ^ i % q := by
  induction w generalizing v with
  | zero => rfl
  | succ w ih =>
    rw [digits, ih, List.range_succ_eq_map]
    simp only [List.map_cons, pow_zero, Nat.div_one, List.map_map]
    congr 1
    apply List.map_congr_left
    intro i _
    simp only [Function.comp_apply]
    rw [Nat.div_div_eq_div_mul, ← Nat.pow_succ', Nat.succ_eq_add_one]

/-- Numbers to their digits, one number after the other. -/
def spell (q w : Nat) (vs : List Nat) : List Nat := vs.flatMap (digits q w)

/-- Digits to numbers, `w` at a time, `m` numbers. -/
def group (q w : Nat) : Nat → List Nat → List Nat
  | 0, _ => []
  | m + 1, ds => number q (ds.take w) :: group q w m (ds.drop w)

theorem spell_length (q w : Nat) (vs : List Nat) : (spell q w vs).length = vs.length * w := by
  induction vs with
  | nil => simp [spell]
  | cons v r ih =>
    simp only [spell, List.flatMap_cons, List.length_append, digits_length, List.length_cons]
    have : (List.flatMap (digits q w) r).length = r.length * w := ih
    rw [this]; ring

theorem spell_mem {q m w : Nat} (hq : 0 < q) {vs : List Nat} (h : vs.length = m) : spell q w vs ∈ Box q (m * w) := by
  refine ⟨by rw [spell_length, h], fun x hx => ?_⟩
  obtain ⟨v, _, hv⟩ := List.mem_flatMap.1 hx
  exact digits_lt hq w v x hv

theorem group_mem {q m w : Nat} {ds : List Nat} (h : ds ∈ Box q (m * w)) : group q w m ds ∈ Box (q ^ w) m := by
  induction m generalizing ds with
  | zero => exact ⟨rfl, by simp [group]⟩
  | succ m ih =>
    obtain ⟨hl, hx⟩ := h
    have e : (m + 1) * w = m * w + w := by ring
    have h1 : ds.drop w ∈ Box q (m * w) := ⟨by rw [List.length_drop, hl, e]; omega, fun x hx' => hx x (List.mem_of_mem_drop hx')⟩
    obtain ⟨g1, g2⟩ := ih h1
    refine ⟨by simp [group, g1], ?_⟩
    intro x hx'
    rcases List.mem_cons.1 hx' with rfl | hx'
    · have := number_lt q (ds.take w) (fun x hx' => hx x (List.mem_of_mem_take hx'))
      rwa [List.length_take, hl, e, Nat.min_eq_left (by omega)] at this
    · exact g2 x hx'

theorem spell_group {q m w : Nat} {ds : List Nat} (h : ds ∈ Box q (m * w)) : spell q w (group q w m ds) = ds := by
  induction m generalizing ds with
  | zero =>
    have : ds = [] := List.length_eq_zero_iff.1 (by simpa using h.1)
    rw [this]; rfl
  | succ m ih =>
    obtain ⟨hl, hx⟩ := h
    have e : (m + 1) * w = m * w + w := by ring
    have h1 : ds.drop w ∈ Box q (m * w) := ⟨by rw [List.length_drop, hl, e]; omega, fun x hx' => hx x (List.mem_of_mem_drop hx')⟩
    have ht : (ds.take w).length = w := by rw [List.length_take, hl, e, Nat.min_eq_left (by omega)]
    have hd := digits_number q (ds.take w) (fun x hx' => hx x (List.mem_of_mem_take hx'))
    rw [ht] at hd
    have := ih h1
    simp only [spell] at this
    simp only [group, spell, List.flatMap_cons, hd, this, List.take_append_drop]

theorem group_spell {q m w : Nat} {vs : List Nat} (h : vs ∈ Box (q ^ w) m) : group q w m (spell q w vs) = vs := by
  induction m generalizing vs with
  | zero =>
    have : vs = [] := List.length_eq_zero_iff.1 h.1
    rw [this]; rfl
  | succ m ih =>
    obtain ⟨hl, hx⟩ := h
    cases vs with
    | nil => simp at hl
    | cons v r =>
      have hr : r ∈ Box (q ^ w) m := ⟨by simpa using hl, fun x hx' => hx x (List.mem_cons_of_mem _ hx')⟩
      have e : spell q w (v :: r) = digits q w v ++ spell q w r := by simp [spell]
      rw [e]
      have ht : ((digits q w v) ++ spell q w r).take w = digits q w v := by
        rw [List.take_append_of_le_length (by rw [digits_length]), List.take_of_length_le (by rw [digits_length])]
      have hd : ((digits q w v) ++ spell q w r).drop w = spell q w r := by
        rw [List.drop_append_of_le_length (by rw [digits_length]), List.drop_of_length_le (by rw [digits_length]), List.nil_append]
      rw [group, ht, hd, ih hr, number_digits q w v (hx v (List.mem_cons_self ..))]

/-! ## Counting -/

theorem box_card (q m : Nat) : (Box q m).ncard = q ^ m := by
  have e : (Box q m).ncard = Nat.card (Fin m → Fin q) := by
    rw [← Nat.card_coe_set_eq]
    refine (Nat.card_congr (Equiv.ofBijective
      (fun f : Fin m → Fin q => (⟨List.ofFn fun i => (f i).val, by simp, by
        intro x hx
        obtain ⟨i, rfl⟩ := List.mem_ofFn.1 hx
        exact (f i).isLt⟩ : Box q m)) ⟨?_, ?_⟩)).symm
    · intro f g h
      have h' : (List.ofFn fun i => (f i).val) = List.ofFn fun i => (g i).val := congrArg Subtype.val h
      have := List.ofFn_injective h'
      funext i
      exact Fin.ext (congrFun this i)
    · rintro ⟨l, hl, hx⟩
      refine ⟨fun i => ⟨l[i.val]'(by rw [hl]; exact i.isLt), hx _ (List.getElem_mem _)⟩, ?_⟩
      apply Subtype.ext
      apply List.ext_getElem
      · simp [hl]
      · intro i h1 h2
        simp
  rw [e, Nat.card_eq_fintype_card, Fintype.card_fun, Fintype.card_fin, Fintype.card_fin]

theorem unpack_eq (bs : List Nat) : unpackLittle bs = spell 2 8 bs := by
  unfold unpackLittle spell
  congr 1
  funext b
  exact (digits_eq_map 2 8 b).symm

/-- **C97** `random_bits(n)` has `n` entries, each 0 or 1; entry `i` is bit `i mod 8` of byte `i / 8`. -/
theorem random_bits_values (n : Nat) (raw : List Nat) (h : raw ∈ Box 256 (bitBytes n)) :
    randomBits n raw ∈ Box 2 n ∧ ∀ i, i < n → ∃ b, raw[i / 8]? = some b ∧ (randomBits n raw)[i]? = some (b / 2 ^ (i % 8) % 2) := by
  have hn : n ≤ bitBytes n * 8 := by unfold bitBytes; omega
  have hm : spell 2 8 raw ∈ Box 2 (bitBytes n * 8) := spell_mem (by decide) h.1
  refine ⟨⟨?_, ?_⟩, ?_⟩
  · unfold randomBits; rw [unpack_eq, List.length_take, hm.1]; omega
  · intro x hx
    unfold randomBits at hx
    rw [unpack_eq] at hx
    exact hm.2 x (List.mem_of_mem_take hx)
  · intro i hi
    have hi8 : i / 8 < raw.length := by rw [h.1]; unfold bitBytes; omega
    refine ⟨raw[i / 8], List.getElem?_eq_getElem hi8, ?_⟩
    have key : ∀ (l : List Nat) (k j : Nat) (hk : k < l.length), j < 8 → (unpackLittle l)[k * 8 + j]? = some (l[k] / 2 ^ j % 2) := by
      intro l
      induction l with
      | nil => intro k j hk; simp at hk
      | cons b r ih =>
        intro k j hk hj
        simp only [unpackLittle, List.flatMap_cons]
        cases k with
        | zero =>
          rw [Nat.zero_mul, Nat.zero_add, List.getElem?_append_left (by simpa using hj)]
          simp [hj]
        | succ k =>
          rw [List.getElem?_append_right (by simp; omega)]
          have := ih k j (by simpa using hk) hj
          simp only [unpackLittle] at this
          simp only [List.length_map, List.length_range]
          rw [show (k + 1) * 8 + j - 8 = k * 8 + j by omega, this]
          simp
    unfold randomBits
    rw [List.getElem?_take, if_pos hi]
    have := key raw (i / 8) (i % 8) hi8 (Nat.mod_lt _ (by decide))
    rwa [show i / 8 * 8 + i % 8 = i by omega] at this

/-- **C97** `random_bits(n)` is uniform: every vector of `n` bits comes from the same number of byte strings. -/
theorem random_bits_uniform (n : Nat) (v : List Nat) (hv : v ∈ Box 2 n) :
    {raw | raw ∈ Box 256 (bitBytes n) ∧ randomBits n raw = v}.ncard = 2 ^ (bitBytes n * 8 - n) := by
  have hn : n ≤ bitBytes n * 8 := by unfold bitBytes; omega
  rw [← box_card 2 (bitBytes n * 8 - n)]
  have mem8 : ∀ t, t ∈ Box 2 (bitBytes n * 8 - n) → v ++ t ∈ Box 2 (bitBytes n * 8) := by
    intro t ht
    refine ⟨by rw [List.length_append, hv.1, ht.1]; omega, fun x hx => ?_⟩
    rcases List.mem_append.1 hx with h | h
    · exact hv.2 x h
    · exact ht.2 x h
  refine (Set.ncard_congr (fun t _ => group 2 8 (bitBytes n) (v ++ t)) ?_ ?_ ?_).symm
  · intro t ht
    refine ⟨group_mem (q := 2) (w := 8) (mem8 t ht), ?_⟩
    unfold randomBits
    rw [unpack_eq, spell_group (mem8 t ht), List.take_append_of_le_length (by rw [hv.1]), List.take_of_length_le (by rw [hv.1])]
  · intro t t' ht ht' e
    have := congrArg (spell 2 8) e
    rw [spell_group (mem8 t ht), spell_group (mem8 t' ht')] at this
    exact List.append_cancel_left this
  · rintro raw ⟨hr, hrv⟩
    have hs : spell 2 8 raw ∈ Box 2 (bitBytes n * 8) := spell_mem (by decide) hr.1
    refine ⟨(spell 2 8 raw).drop n, ⟨by rw [List.length_drop, hs.1], fun x hx => hs.2 x (List.mem_of_mem_drop hx)⟩, ?_⟩
    have : v = (spell 2 8 raw).take n := by rw [← hrv]; unfold randomBits; rw [unpack_eq]
    rw [this, List.take_append_drop]
    exact group_spell (q := 2) (w := 8) hr

example : [1, 0, 1] ∈ Box 2 3 ∧ randomBits 3 [13] = [1, 0, 1] := ⟨⟨rfl, by decide⟩, by decide⟩

theorem view_eq (w : Nat) (hw : 0 < w) (m : Nat) (raw : List Nat) (h : raw.length = m * w) : viewLittle w raw = group 256 w m raw := by
  have key : ∀ (m : Nat) (raw : List Nat), (List.range m).map (fun i => number 256 ((raw.drop (i * w)).take w)) = group 256 w m raw := by
    intro m
    induction m with
    | zero => intro raw; rfl
    | succ m ih =>
      intro raw
      rw [List.range_succ_eq_map, List.map_cons, List.map_map, group, ← ih]
      simp only [Nat.zero_mul, List.drop_zero]
      congr 1
      apply List.map_congr_left
      intro i _
      simp only [Function.comp_apply, List.drop_drop, Nat.succ_eq_add_one]
      congr 3
      ring
  unfold viewLittle
  rw [h, Nat.mul_div_cancel _ hw, key]

/-- **C97** `random_tensor(shape, dtype)` for an element of `w` bytes: every tensor of bit patterns comes from exactly one byte string,
so the tensor is uniform. -/
theorem random_tensor_uniform (shape : List Nat) (w : Nat) (hw : 0 < w) (v : List Nat) (hv : v ∈ Box (256 ^ w) shape.prod) :
    ∃! raw, raw ∈ Box 256 (tensorBytes shape w) ∧ viewLittle w raw = v := by
  refine ⟨spell 256 w v, ⟨spell_mem (by decide) hv.1, ?_⟩, ?_⟩
  · rw [view_eq w hw shape.prod _ (by rw [spell_length, hv.1]), group_spell hv]
  · rintro raw ⟨hr, e⟩
    rw [view_eq w hw shape.prod _ hr.1] at e
    rw [← e, spell_group hr]

/-- **C97** The drawn tensor has one element per position of the shape. -/
theorem random_tensor_size (shape : List Nat) (w : Nat) (hw : 0 < w) (raw : List Nat) (h : raw ∈ Box 256 (tensorBytes shape w)) :
    viewLittle w raw ∈ Box (256 ^ w) shape.prod := by
  rw [view_eq w hw shape.prod _ h.1]; exact group_mem h

example : [513, 7] ∈ Box (256 ^ 2) [2, 1].prod ∧ viewLittle 2 [1, 2, 7, 0] = [513, 7] := ⟨⟨rfl, by decide⟩, by decide⟩

/-- `b.view(bool)`: JAX reads a byte as true when it is not zero (dialects/crypto.py:601-604 with `elt.bool_`) -/
def viewBool (raw : List Nat) : List Bool := raw.map fun b => decide (b ≠ 0)

/-- **C97** (violated: booleans) `random_tensor(shape, bool)` is far from uniform: a tensor with `k` true elements comes from `255 ^ k` of the
`256 ^ n` byte strings, so an element is false once in 256 times. -/
theorem random_bool_violated (v : List Bool) :
    {raw | raw ∈ Box 256 v.length ∧ viewBool raw = v}.ncard = 255 ^ v.count true := by
  induction v with
  | nil =>
    have : {raw | raw ∈ Box 256 ([] : List Bool).length ∧ viewBool raw = []} = {[]} := by
      ext raw
      simp only [Box, viewBool, List.length_nil, Set.mem_setOf_eq, List.length_eq_zero_iff, List.map_eq_nil_iff, Set.mem_singleton_iff]
      exact ⟨fun h => h.2, fun h => ⟨⟨h, by simp [h]⟩, h⟩⟩
    rw [this, Set.ncard_singleton]; rfl
  | cons b v ih =>
    have himg : {raw | raw ∈ Box 256 (b :: v).length ∧ viewBool raw = b :: v} =
        (fun p : Nat × List Nat => p.1 :: p.2) '' ({x | x < 256 ∧ decide (x ≠ 0) = b} ×ˢ {raw | raw ∈ Box 256 v.length ∧ viewBool raw = v}) := by
      ext raw
      constructor
      · rintro ⟨⟨hl, hlt⟩, hv⟩
        cases raw with
        | nil => simp at hl
        | cons x r =>
          simp only [viewBool, List.map_cons, List.cons.injEq] at hv
          exact ⟨(x, r), ⟨⟨hlt x (.head _), hv.1⟩, ⟨⟨by simpa using hl, fun y hy => hlt y (.tail _ hy)⟩, hv.2⟩⟩, rfl⟩
      · rintro ⟨⟨x, r⟩, ⟨⟨hx, hb⟩, ⟨hl, hlt⟩, hv⟩, rfl⟩
        refine ⟨⟨by simpa using hl, ?_⟩, ?_⟩
        · intro y hy
          rcases List.mem_cons.1 hy with rfl | hy
          · exact hx
          · exact hlt y hy
        · have hv' : viewBool r = v := hv
          show (decide (x ≠ 0) :: viewBool r) = b :: v
          rw [hv']; rw [show decide (x ≠ 0) = b from hb]
    have hinj : Function.Injective (fun p : Nat × List Nat => p.1 :: p.2) := by
      rintro ⟨x, r⟩ ⟨y, q⟩ h
      simp only [List.cons.injEq] at h
      rw [h.1, h.2]
    rw [himg, Set.ncard_image_of_injective _ hinj, Set.ncard_prod, ih]
    have hc : {x : Nat | x < 256 ∧ decide (x ≠ 0) = b} = ↑((Finset.range 256).filter fun x => decide (x ≠ 0) = b) := by
      ext x; simp
    rw [hc, Set.ncard_coe_finset]
    cases b with
    | false =>
      rw [show ((Finset.range 256).filter fun x => decide (x ≠ 0) = false).card = 1 by decide +kernel]
      simp
    | true =>
      rw [show ((Finset.range 256).filter fun x => decide (x ≠ 0) = true).card = 255 by decide +kernel]
      simp [pow_succ, mul_comm]

example : viewBool [0, 7] = [false, true] ∧ [false, true].count true = 1 := by decide

/-- The byte strings of 32 bytes are the numbers below `2 ^ 256`. -/
theorem big_endian_bij (k v : Nat) (hv : v < 256 ^ k) : ∃! raw, raw ∈ Box 256 k ∧ number 256 raw.reverse = v := by
  refine ⟨(digits 256 k v).reverse, ⟨⟨by rw [List.length_reverse, digits_length], fun x hx => digits_lt (by decide) k v x (List.mem_reverse.1 hx)⟩,
    by rw [List.reverse_reverse, number_digits _ _ _ hv]⟩, ?_⟩
  rintro raw ⟨hr, e⟩
  have := digits_number 256 raw.reverse (fun x hx => hr.2 x (List.mem_reverse.1 hx))
  rw [List.length_reverse, hr.1, e] at this
  rw [this, List.reverse_reverse]

/-- The drawn numbers that reduce to `s`. -/
theorem mod_fibre (M N s e : Nat) (h2 : M < 2 * N) (hs : s < N) : (e < M ∧ e % N = s) ↔ (e < M ∧ (e = s ∨ e = s + N)) := by
  constructor
  · rintro ⟨he, h⟩
    refine ⟨he, ?_⟩
    have hd := Nat.mod_add_div e N
    have : e / N < 2 := Nat.div_lt_of_lt_mul (by omega)
    generalize e / N = x at *
    have h01 : x = 0 ∨ x = 1 := by omega
    rcases h01 with h0 | h0
    · rw [h0, Nat.mul_zero] at hd; left; omega
    · rw [h0, Nat.mul_one] at hd; right; omega
  · rintro ⟨he, rfl | rfl⟩
    · exact ⟨he, Nat.mod_eq_of_lt hs⟩
    · exact ⟨he, by rw [Nat.add_mod_right, Nat.mod_eq_of_lt hs]⟩

/-- **C97** `ec_random_scalar` is a scalar below the order; with `2 ^ 255 < N < 2 ^ 256` a scalar comes from one or two byte strings:
two exactly for the `2 ^ 256 - N` smallest. -/
theorem random_scalar_count_partial (k N s : Nat) (h1 : N ≤ 256 ^ k) (h2 : 256 ^ k < 2 * N) (hs : s < N) :
    {raw | raw ∈ Box 256 k ∧ randomScalar N raw = s}.ncard = if s < 256 ^ k - N then 2 else 1 := by
  have e : {raw | raw ∈ Box 256 k ∧ randomScalar N raw = s}.ncard = {e : Nat | e < 256 ^ k ∧ (e = s ∨ e = s + N)}.ncard := by
    refine Set.ncard_congr (fun raw _ => number 256 raw.reverse) ?_ ?_ ?_
    · rintro raw ⟨hr, h⟩
      have hlt := number_lt 256 raw.reverse (fun x hx => hr.2 x (List.mem_reverse.1 hx))
      rw [List.length_reverse, hr.1] at hlt
      exact (mod_fibre _ N s _ h2 hs).1 ⟨hlt, h⟩
    · rintro a b ⟨ha, _⟩ ⟨hb, _⟩ hab
      have hlt := number_lt 256 a.reverse (fun x hx => ha.2 x (List.mem_reverse.1 hx))
      rw [List.length_reverse, ha.1] at hlt
      obtain ⟨r, _, huniq⟩ := big_endian_bij k _ hlt
      rw [huniq a ⟨ha, rfl⟩, huniq b ⟨hb, hab.symm⟩]
    · intro x hx
      have hx' := (mod_fibre _ N s _ h2 hs).2 hx
      obtain ⟨r, ⟨hr, hv⟩, _⟩ := big_endian_bij k x hx'.1
      exact ⟨r, ⟨hr, by unfold randomScalar; rw [hv]; exact hx'.2⟩, hv⟩
  rw [e]
  by_cases hlt : s < 256 ^ k - N
  · rw [if_pos hlt]
    have : {e : Nat | e < 256 ^ k ∧ (e = s ∨ e = s + N)} = {s, s + N} := by
      ext x
      simp only [Set.mem_setOf_eq, Set.mem_insert_iff, Set.mem_singleton_iff]
      constructor
      · rintro ⟨_, h⟩; exact h
      · rintro (rfl | rfl)
        · exact ⟨by omega, .inl rfl⟩
        · exact ⟨by omega, .inr rfl⟩
    rw [this, Set.ncard_pair (by omega)]
  · rw [if_neg hlt]
    have : {e : Nat | e < 256 ^ k ∧ (e = s ∨ e = s + N)} = {s} := by
      ext x
      simp only [Set.mem_setOf_eq, Set.mem_singleton_iff]
      constructor
      · rintro ⟨h, rfl | rfl⟩
        · rfl
        · omega
      · rintro rfl; exact ⟨by omega, .inl rfl⟩
    rw [this, Set.ncard_singleton]

/-- **C97** Scalars are not exactly uniform unless the order divides the number of byte strings. -/
theorem random_scalar_violated (k N : Nat) (h1 : N < 256 ^ k) (h2 : 256 ^ k < 2 * N) :
    {raw | raw ∈ Box 256 k ∧ randomScalar N raw = 0}.ncard ≠ {raw | raw ∈ Box 256 k ∧ randomScalar N raw = N - 1}.ncard := by
  rw [random_scalar_count_partial k N 0 (by omega) h2 (by omega), random_scalar_count_partial k N (N - 1) (by omega) h2 (by omega),
    if_pos (by omega), if_neg (by omega)]
  decide

/-- The order of secp256k1 (crypto_impl.py:122) -/
@[irreducible] def secpN : Nat := 0xFFFFFFFFFFFFFFFFFFFFFFFFFFFFFFFEBAAEDCE6AF48A03BBFD25E8CD0364141

theorem secp_bounds : secpN < 256 ^ 32 ∧ 256 ^ 32 < 2 * secpN ∧ 256 ^ 32 - secpN < 2 ^ 129 := by
  unfold secpN
  decide +kernel

/-- **C97** The event "the scalar is in `S`" has at most `2 ^ 129` more or fewer byte strings than under a uniform choice: the
difference of the probabilities is below `2 ^ -127`. -/
theorem random_scalar_near_uniform (k N : Nat) (h1 : N ≤ 256 ^ k) (h2 : 256 ^ k < 2 * N) (S : Finset Nat) (hS : ∀ s ∈ S, s < N) :
    |((S.sum fun s => ({raw | raw ∈ Box 256 k ∧ randomScalar N raw = s}.ncard : Int)) * N - (S.card : Int) * ((256 ^ k : Nat) : Int))| ≤
      (((256 ^ k - N : Nat) : Int)) * N := by
  have hsum : (S.sum fun s => ({raw | raw ∈ Box 256 k ∧ randomScalar N raw = s}.ncard : Int)) =
      (S.card : Int) + ((S.filter (fun s => s < 256 ^ k - N)).card : Int) := by
    have : ∀ s ∈ S, ({raw | raw ∈ Box 256 k ∧ randomScalar N raw = s}.ncard : Int) = 1 + (if s < 256 ^ k - N then 1 else 0) := by
      intro s hs
      rw [random_scalar_count_partial k N s h1 h2 (hS s hs)]
      split <;> rfl
    rw [Finset.sum_congr rfl this, Finset.sum_add_distrib]
    rw [Finset.sum_const, nsmul_one, ← Finset.sum_filter, Finset.sum_const, nsmul_one]
  have hc : S.card ≤ N := by
    have : S ⊆ Finset.range N := fun s hs => Finset.mem_range.2 (hS s hs)
    simpa using Finset.card_le_card this
  have ht : (S.filter (fun s => s < 256 ^ k - N)).card ≤ 256 ^ k - N := by
    have : S.filter (fun s => s < 256 ^ k - N) ⊆ Finset.range (256 ^ k - N) := fun s hs => Finset.mem_range.2 (Finset.mem_filter.1 hs).2
    simpa using Finset.card_le_card this
  rw [hsum]
  generalize (S.filter (fun s => s < 256 ^ k - N)).card = t at *
  generalize S.card = c at *
  have hM : ((256 ^ k : Nat) : Int) = ((256 ^ k - N : Nat) : Int) + N := by
    rw [Nat.cast_sub h1]; ring
  rw [hM]
  generalize 256 ^ k - N = d at *
  have e : ((c : Int) + t) * N - c * ((d : Int) + N) = t * N - c * d := by ring
  rw [e, abs_le]
  have a1 : (c : Int) * d ≤ d * N := by
    rw [mul_comm]; exact mul_le_mul_of_nonneg_left (by exact_mod_cast hc) (by positivity)
  have a2 : (t : Int) * N ≤ d * N := mul_le_mul_of_nonneg_right (by exact_mod_cast ht) (by positivity)
  have a3 : (0 : Int) ≤ t * N := by positivity
  have a4 : (0 : Int) ≤ c * d := by positivity
  constructor <;> linarith

/-- Non-vacuity: the bounds hold for secp256k1 with 32 bytes. -/
example : ∀ S : Finset Nat, (∀ s ∈ S, s < secpN) →
    |((S.sum fun s => ({raw | raw ∈ Box 256 32 ∧ randomScalar secpN raw = s}.ncard : Int)) * secpN - (S.card : Int) * ((256 ^ 32 : Nat) : Int))| ≤
      (((256 ^ 32 - secpN : Nat) : Int)) * secpN :=
  fun S hS => random_scalar_near_uniform 32 secpN (Nat.le_of_lt secp_bounds.1) secp_bounds.2.1 S hS

/-! ## C98: bits and bytes (libs/mpc/_utils.py:27-56) -/

/-- `jnp.unpackbits(y)` and `jnp.packbits`: highest bit first -/
def unpackBig (bs : List Nat) : List Nat := bs.flatMap fun b => (digits 2 8 b).reverse

/-- `fliplr` of the rows of eight -/
def flip8 : Nat → List Nat → List Nat
  | 0, _ => []
  | m + 1, ds => (ds.take 8).reverse ++ flip8 m (ds.drop 8)

/-- `bytes_to_bits` (libs/mpc/_utils.py:27-44) of a byte tensor -/
def bytesToBits (bs : List Nat) : List Nat := flip8 bs.length (unpackBig bs)

/-- `jnp.packbits(bits)`: highest bit first; a last group of fewer than eight is filled with zeros; entries are read as "not zero" -/
def packBig : Nat → List Nat → List Nat
  | 0, _ => []
  | m + 1, ds => number 2 ((ds.take 8 ++ List.replicate (8 - (ds.take 8).length) 0).map fun d => if d = 0 then 0 else 1).reverse ::
      packBig m (ds.drop 8)

/-- `bits_to_bytes` (libs/mpc/_utils.py:47-56) of a bit vector -/
def bitsToBytes (bits : List Nat) : List Nat := packBig ((bits.length + 7) / 8) bits

/-- **C98** `bytes_to_bits`: bit `8 i + j` is bit `j` of byte `i`, lowest first. -/
theorem bytes_to_bits_spec (bs : List Nat) : bytesToBits bs = unpackLittle bs := by
  rw [unpack_eq]
  unfold bytesToBits
  induction bs with
  | nil => rfl
  | cons b r ih =>
    have e : unpackBig (b :: r) = (digits 2 8 b).reverse ++ unpackBig r := by simp [unpackBig]
    have hl : ((digits 2 8 b).reverse).length = 8 := by rw [List.length_reverse, digits_length]
    rw [e, List.length_cons, flip8]
    have ht : ((digits 2 8 b).reverse ++ unpackBig r).take 8 = (digits 2 8 b).reverse := by
      rw [List.take_append_of_le_length (by rw [hl]), List.take_of_length_le (by rw [hl])]
    have hd : ((digits 2 8 b).reverse ++ unpackBig r).drop 8 = unpackBig r := by
      rw [List.drop_append_of_le_length (by rw [hl]), List.drop_of_length_le (by rw [hl]), List.nil_append]
    rw [ht, hd, List.reverse_reverse, ih]
    simp [spell]

/-- The byte with its eight bits in the other order. -/
def mirror (b : Nat) : Nat := number 2 (digits 2 8 b).reverse

/-- **C98** What the round trip of the two helpers gives: every byte with its bits reversed. -/
theorem bits_round_trip_partial (bs : List Nat) : bitsToBytes (bytesToBits bs) = bs.map mirror := by
  rw [bytes_to_bits_spec, unpack_eq]
  unfold bitsToBytes
  rw [spell_length, show (bs.length * 8 + 7) / 8 = bs.length by omega]
  induction bs with
  | nil => rfl
  | cons b r ih =>
    have e : spell 2 8 (b :: r) = digits 2 8 b ++ spell 2 8 r := by simp [spell]
    have hl : (digits 2 8 b).length = 8 := digits_length ..
    rw [e, List.length_cons, packBig]
    have ht : (digits 2 8 b ++ spell 2 8 r).take 8 = digits 2 8 b := by
      rw [List.take_append_of_le_length (by rw [hl]), List.take_of_length_le (by rw [hl])]
    have hd : (digits 2 8 b ++ spell 2 8 r).drop 8 = spell 2 8 r := by
      rw [List.drop_append_of_le_length (by rw [hl]), List.drop_of_length_le (by rw [hl]), List.nil_append]
    have hmap : ((digits 2 8 b).map fun d => if d = 0 then 0 else 1) = digits 2 8 b := by
      conv_rhs => rw [← List.map_id (digits 2 8 b)]
      apply List.map_congr_left
      intro d hd
      have := digits_lt (q := 2) (by decide) 8 b d hd
      by_cases h0 : d = 0
      · simp [h0]
      · simp only [h0, if_false, id]; omega
    rw [ht, hd, ih, hl, Nat.sub_self, List.replicate_zero, List.append_nil, hmap]
    rfl

/-- **C98** So the helpers are not inverse to each other: the byte 1 comes back as 128. -/
theorem bits_round_trip_violated : bitsToBytes (bytesToBits [1]) = [128] := by decide +kernel

/-- **C98** Exactly the byte strings whose bytes read the same in both directions survive. -/
theorem bits_round_trip_iff (bs : List Nat) : bitsToBytes (bytesToBits bs) = bs ↔ ∀ b ∈ bs, mirror b = b := by
  rw [bits_round_trip_partial]
  induction bs with
  | nil => simp
  | cons b r ih => simp [ih]

/-- **C98** Reading the bits lowest first would be the inverse, for all bytes. -/
theorem little_round_trip (bs : List Nat) (h : ∀ b ∈ bs, b < 256) : group 2 8 bs.length (bytesToBits bs) = bs := by
  rw [bytes_to_bits_spec, unpack_eq]
  exact group_spell ⟨rfl, h⟩

example : bitsToBytes (bytesToBits [24, 129]) = [24, 129] ∧ mirror 24 = 24 := by decide +kernel

end Verif.Crypto.Random
