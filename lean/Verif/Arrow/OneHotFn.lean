import Verif.Arrow.Types
/-!
# C84 — `one_hot` on values, and the functions registered for SQL and PyArrow (mplang/extend/arrow/compute.py)

An array of integers is its type and its rows (`none` = null).  A cast is PyArrow's safe cast: it raises when a value does not fit.
-/
namespace Verif.Arrow

/-- smallest value of an integer type (0 for the floating types, which no integer array has); compute.py:58 -/
def Num.lo : Num → Int
  | .int8 => -128 | .int16 => -32768 | .int32 => -2147483648 | .int64 => -9223372036854775808
  | _ => 0
/-- largest value of an integer type; compute.py:58 -/
def Num.hi : Num → Int
  | .int8 => 127 | .int16 => 32767 | .int32 => 2147483647 | .int64 => 9223372036854775807
  | .uint8 => 255 | .uint16 => 65535 | .uint32 => 4294967295 | .uint64 => 18446744073709551615
  | _ => 0

/-- a value of the type -/
def Fits (t : Num) (v : Int) : Prop := t.lo ≤ v ∧ v ≤ t.hi
instance (t : Num) (v : Int) : Decidable (Fits t v) := by unfold Fits; infer_instance

/-- an integer array: its type and rows -/
structure IntArr where
  ty : Num
  rows : List (Option Int)
  deriving DecidableEq

/-- what Arrow guarantees of an integer array -/
def IntArr.Ok (a : IntArr) : Prop := a.ty.isInt = true ∧ ∀ v, some v ∈ a.rows → Fits a.ty v

/-- `array.cast(t)` (safe): nulls stay, a value outside of the target type raises. compute.py:71, 169 -/
def castTo (t : Num) (rows : List (Option Int)) : Except Err (List (Option Int)) :=
  if rows.all fun x => x.all fun v => decide (Fits t v) then .ok rows else .error .valueError

/-- the number type behind a data type, if it is one -/
def DType.num? : DType → Option Num
  | .num n => some n
  | _ => none

/-- `one_hot`: the type, and the stored indices after the cast to the index type. compute.py:25-73 -/
def oneHot (a : IntArr) (numClasses : Int) (dtype itype : String) : Except Err (VType × List (Option Int)) :=
  (oneHotType (.num a.ty) numClasses dtype itype).bind fun t =>
    match t.storage.num? with
    | some n => (castTo n a.rows).map fun r => (t, r)
    | none => .error .typeError

/-- the wrappers registered with two, three and four parameters: the storage of the result, with four parameters cast to `int32`.
compute.py:102-172 -/
def registered2 (a : IntArr) (numClasses : Int) : Except Err (List (Option Int)) := (oneHot a numClasses "float32" "").map (·.2)
/-- see `registered2` -/
def registered3 (a : IntArr) (numClasses : Int) (dtype : String) : Except Err (List (Option Int)) := (oneHot a numClasses dtype "").map (·.2)
/-- see `registered2` -/
def registered4 (a : IntArr) (numClasses : Int) (dtype itype : String) : Except Err (List (Option Int)) :=
  (oneHot a numClasses dtype itype).bind fun r => castTo .int32 r.2

/-! ## Properties -/

/-- **C84** (ranges) The values of the integer types: two's complement of the width in their names. -/
theorem integer_ranges (v : Int) :
    (Fits .int8 v ↔ -2 ^ 7 ≤ v ∧ v < 2 ^ 7) ∧ (Fits .int16 v ↔ -2 ^ 15 ≤ v ∧ v < 2 ^ 15) ∧
    (Fits .int32 v ↔ -2 ^ 31 ≤ v ∧ v < 2 ^ 31) ∧ (Fits .int64 v ↔ -2 ^ 63 ≤ v ∧ v < 2 ^ 63) ∧
    (Fits .uint8 v ↔ 0 ≤ v ∧ v < 2 ^ 8) ∧ (Fits .uint16 v ↔ 0 ≤ v ∧ v < 2 ^ 16) ∧
    (Fits .uint32 v ↔ 0 ≤ v ∧ v < 2 ^ 32) ∧ (Fits .uint64 v ↔ 0 ≤ v ∧ v < 2 ^ 64) := by
  simp only [Fits, Num.lo, Num.hi]
  refine ⟨?_, ?_, ?_, ?_, ?_, ?_, ?_, ?_⟩ <;> omega

theorem castTo_ok {t : Num} {rows r : List (Option Int)} : castTo t rows = .ok r ↔ r = rows ∧ ∀ v, some v ∈ rows → Fits t v := by
  have e : (rows.all fun x => x.all fun v => decide (Fits t v)) = true ↔ ∀ v, some v ∈ rows → Fits t v := by
    rw [List.all_eq_true]
    constructor
    · intro h v hv; simpa using h _ hv
    · intro h x hx
      cases x with
      | none => rfl
      | some v => simpa using h v hx
  unfold castTo
  split
  next h => simp only [Except.ok.injEq]; exact ⟨fun h' => ⟨h'.symm, e.1 h⟩, fun h' => h'.1.symm⟩
  next h => exact ⟨fun h' => (by cases h'), fun h' => absurd (e.2 h'.2) h⟩

theorem strToType_num {s : String} {d : DType} (h : strToType s = .ok d) : ∃ n, d = .num n := by
  unfold strToType at h
  split at h
  · exact ⟨_, (Except.ok.inj h).symm⟩
  · cases h

/-- **C84** (`one_hot` on values) An array of integers is accepted exactly for a positive number of classes, a known component type and an
integer index type (the array's own if none is named) that can hold every index; the result has the rows of the array, nulls included,
in their order. -/
theorem one_hot_values {a : IntArr} (ha : a.Ok) (n : Int) (dtype itype : String) (t : VType) (r : List (Option Int)) :
    oneHot a n dtype itype = .ok (t, r) ↔
      0 < n ∧ r = a.rows ∧ ∃ v i, strToType dtype = .ok (.num v) ∧ t = ⟨.oneHot, n, .num v, .num i⟩ ∧
        (if itype = "" then i = a.ty else strToType itype = .ok (.num i) ∧ i.isInt = true ∧ ∀ x, some x ∈ a.rows → Fits i x) := by
  have key : oneHot a n dtype itype = .ok (t, r) ↔
      oneHotType (.num a.ty) n dtype itype = .ok t ∧ ∃ i, t.storage.num? = some i ∧ castTo i a.rows = .ok r := by
    unfold oneHot
    cases ht : oneHotType (.num a.ty) n dtype itype with
    | error e => simp [Except.bind]
    | ok t' =>
      simp only [Except.bind, Except.ok.injEq]
      cases hs : t'.storage.num? with
      | none =>
        simp only
        constructor
        · intro h; cases h
        · rintro ⟨rfl, i, h, _⟩; rw [hs] at h; cases h
      | some i =>
        cases hc : castTo i a.rows with
        | error e =>
          simp only [Except.map, hc, reduceCtorEq, false_iff]
          rintro ⟨rfl, i', h, h2⟩
          rw [hs] at h; cases h; rw [hc] at h2; cases h2
        | ok r' =>
          simp only [Except.map, hc, Except.ok.injEq, Prod.mk.injEq]
          constructor
          · rintro ⟨rfl, rfl⟩; exact ⟨rfl, i, hs, hc⟩
          · rintro ⟨rfl, i', h, h2⟩
            rw [hs] at h; cases h; rw [hc] at h2; cases h2; exact ⟨rfl, rfl⟩
  rw [key, one_hot_type]
  constructor
  · rintro ⟨⟨_, hn, v, hv, i, hi, rfl⟩, j, hj, hc⟩
    obtain ⟨vn, rfl⟩ := strToType_num hv
    obtain ⟨rfl, hf⟩ := castTo_ok.1 hc
    refine ⟨hn, rfl, vn, j, hv, ?_, ?_⟩
    · cases i <;> simp [DType.num?] at hj
      subst hj; rfl
    · cases i <;> simp [DType.num?] at hj
      subst hj
      split at hi
      next h => rw [if_pos h]; cases hi; rfl
      next h => rw [if_neg h]; exact ⟨hi.1, hi.2, hf⟩
  · rintro ⟨hn, rfl, v, i, hv, rfl, hi⟩
    refine ⟨⟨ha.1, hn, .num v, hv, .num i, ?_, rfl⟩, i, rfl, castTo_ok.2 ⟨rfl, ?_⟩⟩
    · split at hi
      next h => rw [if_pos h, hi]
      next h => rw [if_neg h]; exact ⟨hi.1, hi.2.1⟩
    · split at hi
      next h => rw [hi]; exact ha.2
      next h => exact hi.2.2

/-- Three indices, one missing: accepted in the array's own type, in `int8`, and refused in `uint8` because of -1. -/
example : (⟨.int64, [some 2, none, some (-1)]⟩ : IntArr).Ok ∧
    oneHot ⟨.int64, [some 2, none, some (-1)]⟩ 3 "float32" "int8" =
      .ok (⟨.oneHot, 3, .num .float32, .num .int8⟩, [some 2, none, some (-1)]) ∧
    oneHot ⟨.int64, [some 2, none, some (-1)]⟩ 3 "float32" "uint8" = .error .valueError := by
  refine ⟨⟨rfl, ?_⟩, by decide +kernel, by decide +kernel⟩
  intro v hv
  simp only [List.mem_cons, Option.some.injEq, reduceCtorEq, List.not_mem_nil, or_false, false_or] at hv
  rcases hv with rfl | rfl <;> decide

/-- **C84** (indices in range) For an accepted array whose indices are all below the number of classes and not negative, row `k` of the
matrix has a single 1, in the column the array names; a null row has none. -/
theorem one_hot_matrix_partial {V : Type} [Zero V] [One V] (hne : (1 : V) ≠ 0) {a : IntArr} (ha : a.Ok) {n : Int} {dtype itype : String} {t : VType}
    {r : List (Option Int)} (h : oneHot a n dtype itype = .ok (t, r)) (hin : ∀ v, some v ∈ a.rows → 0 ≤ v ∧ v < n) (k : Nat) :
    (oneHotNumpy n r : List (List V)).length = a.rows.length ∧
    (∀ v, a.rows[k]? = some (some v) → ∃ row, (oneHotNumpy n r : List (List V))[k]? = some row ∧ row.length = n.toNat ∧
      ∀ j : Nat, row[j]? = some 1 ↔ (j : Int) = v) ∧
    (a.rows[k]? = some none → (oneHotNumpy n r : List (List V))[k]? = some (List.replicate n.toNat 0)) := by
  obtain ⟨hn, rfl, _⟩ := (one_hot_values ha n dtype itype t r).1 h
  rw [one_hot_numpy_pylist]
  unfold oneHotPyList
  refine ⟨by simp, ?_, ?_⟩
  · intro v hv
    obtain ⟨h0, h1⟩ := hin v (List.mem_of_getElem? hv)
    refine ⟨oneHotAsPy n (some v), by rw [List.getElem?_map, hv]; rfl, ?_, ?_⟩
    · unfold oneHotAsPy; simp only; rw [if_pos ⟨h0, h1⟩]; simp
    · intro j
      unfold oneHotAsPy
      simp only
      rw [if_pos ⟨h0, h1⟩, List.getElem?_set]
      by_cases hj : v.toNat = j
      · subst hj
        have : v.toNat < n.toNat := by omega
        simp [this]; omega
      · rw [if_neg hj]
        constructor
        · intro h'
          rw [List.getElem?_replicate] at h'
          split at h'
          · exact absurd (Option.some.inj h').symm hne
          · cases h'
        · intro h'; omega
  · intro hv
    rw [List.getElem?_map, hv]; rfl

example : (oneHotNumpy 3 [some 2, none] : List (List Int)) = [[0, 0, 1], [0, 0, 0]] := by decide

/-- **C84** (violated) Any index that fits its type is accepted, however large the number of classes: outside of it the row has no 1. -/
theorem one_hot_range_violated (n : Int) (hn : 0 < n) (v : Int) (hv : Fits .int64 v) (hout : v < 0 ∨ n ≤ v) :
    ∃ t r, oneHot ⟨.int64, [some v]⟩ n "float32" "" = .ok (t, r) ∧ (oneHotNumpy n r : List (List Int)) = [List.replicate n.toNat 0] := by
  have ha : (⟨.int64, [some v]⟩ : IntArr).Ok := ⟨rfl, fun x hx => by
    simp only [List.mem_singleton, Option.some.injEq] at hx; rw [hx]; exact hv⟩
  refine ⟨⟨.oneHot, n, .num .float32, .num .int64⟩, [some v], (one_hot_values ha _ _ _ _ _).2 ⟨hn, rfl, .float32, .int64, by decide, rfl, by rw [if_pos rfl]⟩, ?_⟩
  rw [one_hot_numpy_pylist]
  unfold oneHotPyList oneHotAsPy
  simp only [List.map_cons, List.map_nil]
  rw [if_neg (by omega)]

example : Fits .int64 7 ∧ (7 < (0 : Int) ∨ (3 : Int) ≤ 7) := by decide

/-- **C84** (registered functions) What `one_hot_<type>` and `one_hot_<type>_3` return are the indices themselves: the number of classes and
the component type decide whether the call is accepted and are then forgotten. -/
theorem registered_forgets {a : IntArr} (ha : a.Ok) (n : Int) (dtype : String) (r : List (Option Int)) :
    (registered2 a n = .ok r ↔ 0 < n ∧ r = a.rows) ∧
    (registered3 a n dtype = .ok r ↔ 0 < n ∧ r = a.rows ∧ ∃ v, strToType dtype = .ok (.num v)) := by
  have key : ∀ d, (oneHot a n d "").map (·.2) = .ok r ↔ 0 < n ∧ r = a.rows ∧ ∃ v, strToType d = .ok (.num v) := by
    intro d
    constructor
    · intro h
      cases ho : oneHot a n d "" with
      | error e => rw [ho] at h; cases h
      | ok x =>
        obtain ⟨t, r'⟩ := x
        rw [ho] at h
        cases h
        obtain ⟨h1, h2, v, i, h3, _⟩ := (one_hot_values ha n d "" t r').1 ho
        exact ⟨h1, h2, v, h3⟩
    · rintro ⟨h1, h2, v, h3⟩
      rw [(one_hot_values ha n d "" ⟨.oneHot, n, .num v, .num a.ty⟩ r).2 ⟨h1, h2, v, a.ty, h3, rfl, by rw [if_pos rfl]⟩]
      rfl
  refine ⟨?_, key dtype⟩
  unfold registered2
  rw [key]
  exact ⟨fun h => ⟨h.1, h.2.1⟩, fun h => ⟨h.1, h.2, .float32, by decide⟩⟩

example : registered2 ⟨.int32, [some 2, none]⟩ 3 = .ok [some 2, none] ∧ registered3 ⟨.int32, [some 2]⟩ 3 "text" = .error .keyError := by
  decide +kernel

/-- **C84** (registered functions) With four parameters the call is accepted exactly when `one_hot` is and every index fits `int32`. -/
theorem registered_four {a : IntArr} (n : Int) (dtype itype : String) (r : List (Option Int)) :
    registered4 a n dtype itype = .ok r ↔ (∃ t, oneHot a n dtype itype = .ok (t, r)) ∧ ∀ v, some v ∈ r → Fits .int32 v := by
  unfold registered4
  cases ho : oneHot a n dtype itype with
  | error e => simp [Except.bind]
  | ok x =>
    obtain ⟨t, r'⟩ := x
    simp only [Except.bind, castTo_ok, Except.ok.injEq, Prod.mk.injEq]
    constructor
    · rintro ⟨rfl, h⟩; exact ⟨⟨t, rfl, rfl⟩, h⟩
    · rintro ⟨⟨_, _, rfl⟩, h⟩; exact ⟨rfl, h⟩

example : ∃ t, oneHot ⟨.int64, [some 2]⟩ 3 "float32" "int16" = .ok (t, [some 2]) := ⟨⟨.oneHot, 3, .num .float32, .num .int16⟩, by decide +kernel⟩

/-- **C84** (registered functions, violated) An index `one_hot` keeps in `int64` is refused by the function of four parameters that names
`int64` for the indices. -/
theorem registered_four_violated : ∃ t r, oneHot ⟨.int64, [some 3000000000]⟩ 4000000000 "float32" "int64" = .ok (t, r) ∧
    registered4 ⟨.int64, [some 3000000000]⟩ 4000000000 "float32" "int64" = .error .valueError :=
  ⟨⟨.oneHot, 4000000000, .num .float32, .num .int64⟩, [some 3000000000], by decide +kernel, by decide +kernel⟩

end Verif.Arrow
