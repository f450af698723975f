import Verif.Serde.Model
import Verif.Base.Names
/-!
# Data type tables (dialects/dtypes.py): property C62

Array-library dtypes are their names (`np.dtype(d).name`).  The attributes of `jax.numpy` that name dtypes of the searched
form are `jnpAttrs` (jax 0.8).
-/
namespace Verif.Tensor
open Verif.Serde

/-- exceptions of the conversions -/
inductive DtErr where
  | type | value
  deriving DecidableEq, Repr

/-- `_SCALAR_TO_JAX` (dtypes.py:50-72) -/
def scalarTable : List (Ty × String) :=
  [(.int 8 true, "int8"), (.int 16 true, "int16"), (.int 32 true, "int32"), (.int 64 true, "int64"),
   (.int 8 false, "uint8"), (.int 16 false, "uint16"), (.int 32 false, "uint32"), (.int 64 false, "uint64"),
   (.float 16, "float16"), (.float 32, "float32"), (.float 64, "float64"), (.complex 32, "complex64"), (.complex 64, "complex128"),
   (.int 1 true, "bool")]

/-- the dtypes among the attributes `int<n>`, `uint<n>`, `float<n>`, `complex<n>` of `jax.numpy` -/
def jnpAttrs : List String :=
  ["int2", "int4", "int8", "int16", "int32", "int64", "uint2", "uint4", "uint8", "uint16", "uint32", "uint64",
   "float16", "float32", "float64", "complex64", "complex128"]

/-- `getattr(jnp, name)` with `AttributeError` passed over -/
def jnpAttr (name : String) : Except DtErr String := if name ∈ jnpAttrs then .ok name else .error .value

/-- `to_jax` (dtypes.py:75-122).  The table entries for integers, floats and complex types give what the `getattr` branch gives,
and `i1` gives `bool`, so the lookup is the same computation; `b.toNat` is the width (positive by construction). -/
def toJax : Ty → Except DtErr String
  | .int b s => if b = 1 then .ok "bool" else jnpAttr ((if s then "int" else "uint") ++ b.toNat.repr)
  | .float b => jnpAttr ("float" ++ b.toNat.repr)
  | .complex b => jnpAttr ("complex" ++ (b * 2).toNat.repr)
  | .phePlain _ => .error .value
  | .pheCipher _ => .error .value
  | _ => .error .type

/-- the table agrees with the general branches -/
theorem table_agrees : ∀ e ∈ scalarTable, toJax e.1 = .ok e.2 := by
  intro e h
  simp only [scalarTable, List.mem_cons, List.not_mem_nil, or_false] at h
  rcases h with h | h | h | h | h | h | h | h | h | h | h | h | h | h <;> subst h <;> rfl

/-- `sub in name` -/
def contains (sub : String) (name : String) : Bool := (List.range (name.toList.length + 1)).any fun i => sub.toList.isPrefixOf (name.toList.drop i)

/-- the name fallback of `from_dtype` (dtypes.py:215-252): (substring, excluded when `uint` occurs, result) in order -/
def fallback : List (String × Bool × Ty) :=
  [("int8", true, .int 8 true), ("int16", true, .int 16 true), ("int32", true, .int 32 true), ("int64", true, .int 64 true),
   ("uint8", false, .int 8 false), ("uint16", false, .int 16 false), ("uint32", false, .int 32 false), ("uint64", false, .int 64 false),
   ("float16", false, .float 16), ("float32", false, .float 32), ("float64", false, .float 64),
   ("complex64", false, .complex 32), ("complex128", false, .complex 64), ("bool", false, .int 1 true)]

/-- first entry of the fallback that applies -/
def fallbackGo (name : String) : List (String × Bool × Ty) → Except DtErr Ty
  | [] => .error .value
  | (sub, noUint, t) :: r =>
    if contains sub name && !(noUint && contains "uint" name) then .ok t else fallbackGo name r

/-- lookup of a dtype by name in `_JAX_TO_SCALAR` / `_NUMPY_TO_SCALAR` (dtypes.py:146-173) -/
def tableBack (name : String) : List (Ty × String) → Option Ty
  | [] => none
  | (t, n) :: r => if n = name then some t else tableBack name r

/-- `from_dtype` (dtypes.py:176-254) on a dtype given by its (lower case) name: the tables, then the fallback -/
def fromDtype (name : String) : Except DtErr Ty :=
  match tableBack name scalarTable with
  | some t => .ok t
  | none => fallbackGo name fallback

/-- The scalar types with a table entry: the types documented as supported. -/
def Supported (t : Ty) : Prop := t ∈ scalarTable.map Prod.fst

/-- **C62**: for every documented scalar type, converting to a dtype and back gives the same type; different types give
different dtypes. -/
theorem dtype_roundtrip (t : Ty) (h : Supported t) : ∃ d, toJax t = .ok d ∧ fromDtype d = .ok t := by
  simp only [Supported, scalarTable, List.map_cons, List.map_nil, List.mem_cons, List.not_mem_nil, or_false] at h
  rcases h with h | h | h | h | h | h | h | h | h | h | h | h | h | h <;> subst h <;>
    exact ⟨_, by rfl, by rfl⟩

/-- **C62**: converting a documented dtype to a scalar type and back gives the same dtype. -/
theorem dtype_roundtrip_back (d : String) (h : d ∈ scalarTable.map Prod.snd) : ∃ t, fromDtype d = .ok t ∧ toJax t = .ok d := by
  revert h
  have : ∀ d ∈ scalarTable.map Prod.snd, ∃ t, fromDtype d = .ok t ∧ toJax t = .ok d := by
    intro d hd
    simp only [scalarTable, List.map_cons, List.map_nil, List.mem_cons, List.not_mem_nil, or_false] at hd
    rcases hd with h | h | h | h | h | h | h | h | h | h | h | h | h | h <;> subst h <;>
      exact ⟨_, by rfl, by rfl⟩
  exact this d

/-- Types outside the documented table that `to_jax` converts as well. -/
def extraTable : List (Ty × String) :=
  [(.int 1 false, "bool"), (.int 2 true, "int2"), (.int 4 true, "int4"), (.int 2 false, "uint2"), (.int 4 false, "uint4")]

private theorem strip {p : String} {n : Nat} {d : String} (hd : jnpAttr (p ++ n.repr) = .ok d) :
    (p ++ n.repr) ∈ jnpAttrs ∧ d = p ++ n.repr := by
  unfold jnpAttr at hd
  split at hd
  · cases hd; exact ⟨by assumption, rfl⟩
  · cases hd

private theorem width_of {p : String} {n m : Nat} {x : String} (h : p ++ n.repr = x) (hx : x = p ++ m.repr) : n = m :=
  Verif.Base.append_repr_inj (h.trans hx)

private theorem other {p : String} {n : Nat} {x : String} (h : p ++ n.repr = x) (hx : p.toList.isPrefixOf x.toList = false) : False := by
  subst h
  have : p.toList.isPrefixOf (p ++ n.repr).toList = true := by
    rw [String.toList_append, List.isPrefixOf_iff_prefix]; exact List.prefix_append _ _
  rw [this] at hx; cases hx

private theorem of_mem {t : Ty} {d x y : String} {l : List (Ty × String)} (h1 : d = x) (h2 : x = y) (h : (t, y) ∈ l) : (t, d) ∈ l := by
  rw [h1, h2]; exact h

/-- **C62**: `to_jax` converts exactly the documented types and the five of `extraTable`, to the dtype listed. -/
theorem to_jax_iff (t : Ty) (d : String) : toJax t = .ok d ↔ (t, d) ∈ scalarTable ++ extraTable := by
  constructor
  · intro h
    cases t with
    | int b s =>
      change (if b = 1 then _ else _) = _ at h
      split at h
      · rename_i hb; subst hb; cases h; cases s <;> simp [scalarTable, extraTable]
      · cases s
        · obtain ⟨hm, hd⟩ := strip h
          simp only [Bool.false_eq_true, if_false] at hm hd
          simp only [jnpAttrs, List.mem_cons, List.not_mem_nil, or_false] at hm
          rcases hm with hm | hm | hm | hm | hm | hm | hm | hm | hm | hm | hm | hm | hm | hm | hm | hm | hm <;>
            first
            | exact (other hm (by decide +kernel)).elim
            | (have hw := width_of (m := 2) hm (by decide +kernel); obtain rfl : b = 2 := by omega
               exact of_mem hd hm (by simp [scalarTable, extraTable]))
            | (have hw := width_of (m := 4) hm (by decide +kernel); obtain rfl : b = 4 := by omega
               exact of_mem hd hm (by simp [scalarTable, extraTable]))
            | (have hw := width_of (m := 8) hm (by decide +kernel); obtain rfl : b = 8 := by omega
               exact of_mem hd hm (by simp [scalarTable, extraTable]))
            | (have hw := width_of (m := 16) hm (by decide +kernel); obtain rfl : b = 16 := by omega
               exact of_mem hd hm (by simp [scalarTable, extraTable]))
            | (have hw := width_of (m := 32) hm (by decide +kernel); obtain rfl : b = 32 := by omega
               exact of_mem hd hm (by simp [scalarTable, extraTable]))
            | (have hw := width_of (m := 64) hm (by decide +kernel); obtain rfl : b = 64 := by omega
               exact of_mem hd hm (by simp [scalarTable, extraTable]))
        · obtain ⟨hm, hd⟩ := strip h
          simp only [if_true] at hm hd
          simp only [jnpAttrs, List.mem_cons, List.not_mem_nil, or_false] at hm
          rcases hm with hm | hm | hm | hm | hm | hm | hm | hm | hm | hm | hm | hm | hm | hm | hm | hm | hm <;>
            first
            | exact (other hm (by decide +kernel)).elim
            | (have hw := width_of (m := 2) hm (by decide +kernel); obtain rfl : b = 2 := by omega
               exact of_mem hd hm (by simp [scalarTable, extraTable]))
            | (have hw := width_of (m := 4) hm (by decide +kernel); obtain rfl : b = 4 := by omega
               exact of_mem hd hm (by simp [scalarTable, extraTable]))
            | (have hw := width_of (m := 8) hm (by decide +kernel); obtain rfl : b = 8 := by omega
               exact of_mem hd hm (by simp [scalarTable, extraTable]))
            | (have hw := width_of (m := 16) hm (by decide +kernel); obtain rfl : b = 16 := by omega
               exact of_mem hd hm (by simp [scalarTable, extraTable]))
            | (have hw := width_of (m := 32) hm (by decide +kernel); obtain rfl : b = 32 := by omega
               exact of_mem hd hm (by simp [scalarTable, extraTable]))
            | (have hw := width_of (m := 64) hm (by decide +kernel); obtain rfl : b = 64 := by omega
               exact of_mem hd hm (by simp [scalarTable, extraTable]))
    | float b =>
      obtain ⟨hm, hd⟩ := strip h
      simp only [jnpAttrs, List.mem_cons, List.not_mem_nil, or_false] at hm
      rcases hm with hm | hm | hm | hm | hm | hm | hm | hm | hm | hm | hm | hm | hm | hm | hm | hm | hm <;>
        first
        | exact (other hm (by decide +kernel)).elim
        | (have hw := width_of (m := 16) hm (by decide +kernel); obtain rfl : b = 16 := by omega
           exact of_mem hd hm (by simp [scalarTable, extraTable]))
        | (have hw := width_of (m := 32) hm (by decide +kernel); obtain rfl : b = 32 := by omega
           exact of_mem hd hm (by simp [scalarTable, extraTable]))
        | (have hw := width_of (m := 64) hm (by decide +kernel); obtain rfl : b = 64 := by omega
           exact of_mem hd hm (by simp [scalarTable, extraTable]))
    | complex b =>
      obtain ⟨hm, hd⟩ := strip h
      simp only [jnpAttrs, List.mem_cons, List.not_mem_nil, or_false] at hm
      rcases hm with hm | hm | hm | hm | hm | hm | hm | hm | hm | hm | hm | hm | hm | hm | hm | hm | hm <;>
        first
        | exact (other hm (by decide +kernel)).elim
        | (have hw := width_of (m := 64) hm (by decide +kernel); obtain rfl : b = 32 := by omega
           exact of_mem hd hm (by simp [scalarTable, extraTable]))
        | (have hw := width_of (m := 128) hm (by decide +kernel); obtain rfl : b = 64 := by omega
           exact of_mem hd hm (by simp [scalarTable, extraTable]))
    | _ => cases h
  · intro h
    rcases List.mem_append.1 h with h | h
    · exact table_agrees _ h
    · simp only [extraTable, List.mem_cons, List.not_mem_nil, or_false, Prod.mk.injEq] at h
      rcases h with ⟨rfl, rfl⟩ | ⟨rfl, rfl⟩ | ⟨rfl, rfl⟩ | ⟨rfl, rfl⟩ | ⟨rfl, rfl⟩ <;> rfl

private theorem tableBack_mem {n : String} {t : Ty} : ∀ {l : List (Ty × String)}, tableBack n l = some t → t ∈ l.map Prod.fst
  | (a, b) :: r, h => by
    unfold tableBack at h
    split at h
    · cases h; exact List.mem_cons_self ..
    · exact List.mem_cons_of_mem _ (tableBack_mem h)

private theorem fallbackGo_mem {n : String} {t : Ty} : ∀ {l : List (String × Bool × Ty)}, fallbackGo n l = .ok t → t ∈ l.map (·.2.2)
  | (a, b, c) :: r, h => by
    unfold fallbackGo at h
    split at h
    · cases h; exact List.mem_cons_self ..
    · exact List.mem_cons_of_mem _ (fallbackGo_mem h)

/-- **C62**: whatever dtype name is given, `from_dtype` returns a documented type or raises. -/
theorem from_dtype_supported (n : String) (t : Ty) (h : fromDtype n = .ok t) : Supported t := by
  unfold fromDtype at h
  split at h
  · rename_i h2; cases h; exact tableBack_mem h2
  · have := fallbackGo_mem h
    simpa [Supported, fallback, scalarTable] using this

private theorem fallbackGo_unsigned {n : String} {b : Int} (hu : contains "uint" n = true) :
    ∀ {l : List (String × Bool × Ty)}, (∀ e ∈ l, ∀ c, e.2.2 = .int c true → c ≠ 1 → e.2.1 = true) →
      fallbackGo n l = .ok (.int b true) → b = 1
  | (s, x, t) :: r, hl, h => by
    unfold fallbackGo at h
    split at h
    · rename_i hc
      injection h with ht
      apply Classical.byContradiction
      intro hb
      have hx : x = true := hl _ (List.mem_cons_self ..) b ht hb
      rw [hx, hu] at hc
      simp at hc
    · exact fallbackGo_unsigned hu (fun e he => hl e (List.mem_cons_of_mem _ he)) h

private theorem tableBack_pair {n : String} {t : Ty} : ∀ {l : List (Ty × String)}, tableBack n l = some t → (t, n) ∈ l
  | (a, b) :: r, h => by
    unfold tableBack at h
    split at h
    · rename_i hb; cases h; rw [← hb]; exact List.mem_cons_self ..
    · exact List.mem_cons_of_mem _ (tableBack_pair h)

/-- **C62**: a dtype whose name says that it is unsigned (in any spelling, such as `dtype('uint16')` or `<class 'uint16'>`) is never
read as a signed integer of several bits. -/
theorem from_dtype_unsigned (n : String) (b : Int) (hu : contains "uint" n = true) (h : fromDtype n = .ok (.int b true)) : b = 1 := by
  unfold fromDtype at h
  split at h
  · rename_i t h2
    cases h
    have hm := tableBack_pair h2
    simp only [scalarTable, List.mem_cons, Prod.mk.injEq, List.not_mem_nil, or_false, Ty.int.injEq, reduceCtorEq, false_and,
      and_true, and_false, false_or, Bool.false_eq_true] at hm
    rcases hm with h | h | h | h | h
    · rw [h.2] at hu; exact absurd hu (by decide)
    · rw [h.2] at hu; exact absurd hu (by decide)
    · rw [h.2] at hu; exact absurd hu (by decide)
    · rw [h.2] at hu; exact absurd hu (by decide)
    · exact h.1
  · refine fallbackGo_unsigned hu ?_ h
    intro e he c hc h1
    simp only [fallback, List.mem_cons, List.not_mem_nil, or_false] at he
    rcases he with he | he | he | he | he | he | he | he | he | he | he | he | he | he <;> subst he <;>
      first
        | rfl
        | (simp at hc; done)
        | (simp at hc; exact absurd hc.symm h1)

example : contains "uint" "dtype('uint16')" = true ∧ fromDtype "dtype('uint16')" = .ok (.int 16 false) := ⟨rfl, rfl⟩

/-- **C62**: different documented types have different dtypes. -/
theorem dtype_injective (a b : Ty) (d : String) (ha : Supported a) (hb : Supported b) (h1 : toJax a = .ok d) (h2 : toJax b = .ok d) :
    a = b := by
  obtain ⟨x, hx, hx2⟩ := dtype_roundtrip a ha
  obtain ⟨y, hy, hy2⟩ := dtype_roundtrip b hb
  rw [h1] at hx; cases hx
  rw [h2] at hy; cases hy
  rw [hx2] at hy2; cases hy2; rfl

/-- **C62** disagreement: constructible scalar types that convert to a dtype, which does not convert back to them.  `u1` comes
back as the signed `i1`, the 2 and 4 bit integers do not come back, and the dtype `bfloat16` is read as the type of `float16`. -/
theorem dtype_roundtrip_violated :
    (Ty.localOk (.int 1 false) = true ∧ toJax (.int 1 false) = .ok "bool" ∧ fromDtype "bool" = .ok (.int 1 true)) ∧
    (∀ b ∈ [(2 : Int), 4], ∀ s : Bool, Ty.localOk (.int b s) = true ∧
      ∃ d, toJax (.int b s) = .ok d ∧ fromDtype d = .error .value) ∧
    fromDtype "bfloat16" = .ok (.float 16) := by
  refine ⟨⟨rfl, rfl, rfl⟩, ?_, rfl⟩
  intro b hb s
  simp only [List.mem_cons, List.not_mem_nil, or_false] at hb
  rcases hb with rfl | rfl <;> cases s <;> exact ⟨rfl, _, by rfl, by rfl⟩

/-! ## Columns -/

/-- PyArrow types, as far as `from_arrow` tells them apart -/
inductive Arrow where
  | bool | int8 | int16 | int32 | int64 | uint8 | uint16 | uint32 | uint64 | float16 | float32 | float64
  | string | largeString | date | time | timestamp | binary | largeBinary
  | duration | decimal | list | dictionary | null | fixedBinary
  deriving DecidableEq, Repr

/-- `from_arrow` (dtypes.py:262-331); the constants `STRING` … are edsl/typing.py:745-753 -/
def fromArrow : Arrow → Except DtErr Ty
  | .bool => .ok (.int 1 true)
  | .int8 => .ok (.int 8 true) | .int16 => .ok (.int 16 true) | .int32 => .ok (.int 32 true) | .int64 => .ok (.int 64 true)
  | .uint8 => .ok (.int 8 false) | .uint16 => .ok (.int 16 false) | .uint32 => .ok (.int 32 false) | .uint64 => .ok (.int 64 false)
  | .float16 => .ok (.float 16) | .float32 => .ok (.float 32) | .float64 => .ok (.float 64)
  | .string => .ok (.custom "string") | .largeString => .ok (.custom "string")
  | .date => .ok (.custom "date") | .time => .ok (.custom "time") | .timestamp => .ok (.custom "timestamp")
  | .binary => .ok (.custom "binary") | .largeBinary => .ok (.custom "binary")
  | _ => .error .value

/-- the exact names `from_pandas` knows (dtypes.py:361-388) -/
def pandasTable : List (String × Ty) :=
  [("bool", .int 1 true),
   ("int8", .int 8 true), ("Int8", .int 8 true), ("int16", .int 16 true), ("Int16", .int 16 true),
   ("int32", .int 32 true), ("Int32", .int 32 true), ("int64", .int 64 true), ("Int64", .int 64 true),
   ("uint8", .int 8 false), ("UInt8", .int 8 false), ("uint16", .int 16 false), ("UInt16", .int 16 false),
   ("uint32", .int 32 false), ("UInt32", .int 32 false), ("uint64", .int 64 false), ("UInt64", .int 64 false),
   ("float16", .float 16), ("Float16", .float 16), ("float32", .float 32), ("Float32", .float 32),
   ("float64", .float 64), ("Float64", .float 64), ("complex64", .complex 32), ("complex128", .complex 64),
   ("object", .custom "string"), ("str", .custom "string")]

/-- first exact match -/
def pandasGo (n : String) : List (String × Ty) → Option Ty
  | [] => none
  | (m, t) :: r => if m = n then some t else pandasGo n r

/-- `s.startswith(p)` -/
def startsWith (p s : String) : Bool := p.toList.isPrefixOf s.toList

/-- `from_pandas` (dtypes.py:339-402) on `str(dtype)`; no exact name starts with one of the three prefixes, so the order of the
tests does not matter -/
def fromPandas (n : String) : Except DtErr Ty :=
  match pandasGo n pandasTable with
  | some t => .ok t
  | none =>
    if startsWith "string" n then .ok (.custom "string")
    else if startsWith "datetime" n then .ok (.custom "timestamp")
    else if startsWith "timedelta" n then .ok (.custom "interval")
    else .error .value

/-- The Arrow type of a pandas column under `pa.Table.from_pandas` (pyarrow), for the dtypes that fix it. -/
inductive PandasArrow : String → Arrow → Prop
  | bool : PandasArrow "bool" .bool
  | boolean : PandasArrow "boolean" .bool
  | int8 : PandasArrow "int8" .int8 | int8n : PandasArrow "Int8" .int8
  | int16 : PandasArrow "int16" .int16 | int16n : PandasArrow "Int16" .int16
  | int32 : PandasArrow "int32" .int32 | int32n : PandasArrow "Int32" .int32
  | int64 : PandasArrow "int64" .int64 | int64n : PandasArrow "Int64" .int64
  | uint8 : PandasArrow "uint8" .uint8 | uint8n : PandasArrow "UInt8" .uint8
  | uint16 : PandasArrow "uint16" .uint16 | uint16n : PandasArrow "UInt16" .uint16
  | uint32 : PandasArrow "uint32" .uint32 | uint32n : PandasArrow "UInt32" .uint32
  | uint64 : PandasArrow "uint64" .uint64 | uint64n : PandasArrow "UInt64" .uint64
  | float16 : PandasArrow "float16" .float16
  | float32 : PandasArrow "float32" .float32 | float32n : PandasArrow "Float32" .float32
  | float64 : PandasArrow "float64" .float64 | float64n : PandasArrow "Float64" .float64
  | string : PandasArrow "string" .string
  | datetime (unit : String) : PandasArrow ("datetime64[" ++ unit ++ "]") .timestamp
  | timedelta (unit : String) : PandasArrow ("timedelta64[" ++ unit ++ "]") .duration

private theorem starts (p s : String) : startsWith p (p ++ s) = true := by
  unfold startsWith
  rw [String.toList_append, List.isPrefixOf_iff_prefix]; exact List.prefix_append _ _

private theorem head_ne {c : Char} {l : List Char} {m n : String} (hn : n.toList = c :: l) (hm : m.toList.head? ≠ some c) : ¬ m = n := by
  rintro rfl
  rw [hn] at hm
  exact hm rfl

private theorem pandasGo_none {n : String} : ∀ {l : List (String × Ty)}, (∀ e ∈ l, ¬ e.1 = n) → pandasGo n l = none
  | [], _ => rfl
  | (a, b) :: r, h => by
    unfold pandasGo
    rw [if_neg (h _ (List.mem_cons_self ..))]
    exact pandasGo_none fun e he => h e (List.mem_cons_of_mem _ he)

private theorem heads (c : Char) (hc : ∀ e ∈ pandasTable.map Prod.fst, e.toList.head? ≠ some c) {n : String} {l : List Char}
    (hn : n.toList = c :: l) : pandasGo n pandasTable = none :=
  pandasGo_none fun e he => head_ne hn (hc e.1 (List.mem_map_of_mem he))

private theorem other_prefix {c d : Char} {l r : List Char} {p s : String} (hp : p.toList = c :: r) (hs : s.toList = d :: l) (h : c ≠ d) :
    startsWith p s = false := by
  unfold startsWith
  rw [hp, hs]
  simp [List.isPrefixOf, h]

private theorem datetime_type (s : String) : fromPandas ("datetime" ++ s) = .ok (.custom "timestamp") := by
  have hn : ("datetime" ++ s).toList = 'd' :: ("atetime".toList ++ s.toList) := by rw [String.toList_append]; rfl
  unfold fromPandas
  rw [heads 'd' (by decide +kernel) hn]
  simp only
  rw [other_prefix (p := "string") (by rfl) hn (by decide), starts]
  rfl

private theorem timedelta_type (s : String) : fromPandas ("timedelta" ++ s) = .ok (.custom "interval") := by
  have hn : ("timedelta" ++ s).toList = 't' :: ("imedelta".toList ++ s.toList) := by rw [String.toList_append]; rfl
  unfold fromPandas
  rw [heads 't' (by decide +kernel) hn]
  simp only
  rw [other_prefix (p := "string") (by rfl) hn (by decide), other_prefix (p := "datetime") (by rfl) hn (by decide), starts]
  rfl

/-- **C62**: for a column both readers accept, the type from its pandas dtype is the type from the Arrow column it is converted
to.  Missing for the full claim: they do not accept the same columns, `column_types_violated`. -/
theorem column_types_agree_partial (n : String) (a : Arrow) (t u : Ty) (h : PandasArrow n a) (hp : fromPandas n = .ok t)
    (ha : fromArrow a = .ok u) : t = u := by
  cases h with
  | datetime s =>
    rw [show "datetime64[" ++ s ++ "]" = "datetime" ++ ("64[" ++ s ++ "]") from by
      rw [← String.toList_inj]; simp [String.toList_append]] at hp
    rw [datetime_type] at hp
    cases hp; cases ha; rfl
  | timedelta s => cases ha
  | boolean => exact absurd hp (by rw [show fromPandas "boolean" = .error .value from rfl]; intro h; cases h)
  | _ =>
    cases ha
    first
    | (have h2 : fromPandas _ = .ok _ := hp
       rw [show fromPandas "bool" = .ok (.int 1 true) from rfl] at h2; cases h2; rfl)
    | (simp only [fromPandas, pandasTable, pandasGo] at hp; simp (config := { decide := true }) at hp; exact hp.symm)

/-- **C62** disagreement: a nullable boolean column has a type as an Arrow column but none as a pandas column; a `timedelta64`
column of any unit has a type as a pandas column but none as an Arrow column. -/
theorem column_types_violated :
    (PandasArrow "boolean" .bool ∧ fromArrow .bool = .ok (.int 1 true) ∧ fromPandas "boolean" = .error .value) ∧
    (∀ unit, PandasArrow ("timedelta64[" ++ unit ++ "]") .duration ∧
      fromPandas ("timedelta64[" ++ unit ++ "]") = .ok (.custom "interval") ∧ fromArrow .duration = .error .value) := by
  refine ⟨⟨.boolean, rfl, rfl⟩, fun s => ⟨.timedelta s, ?_, rfl⟩⟩
  rw [show "timedelta64[" ++ s ++ "]" = "timedelta" ++ ("64[" ++ s ++ "]") from by
      rw [← String.toList_inj]; simp [String.toList_append]]
  exact timedelta_type _

/-- non-vacuity: a documented type, a dtype only the fallback reads, two columns -/
example : Supported (.complex 64) ∧ toJax (.complex 64) = .ok "complex128" ∧ fromDtype "complex128" = .ok (.complex 64) :=
  ⟨by simp [Supported, scalarTable], rfl, rfl⟩
example : fromDtype "xint32" = .ok (.int 32 true) ∧ fromDtype "int2" = .error .value := ⟨rfl, rfl⟩
example : PandasArrow "UInt16" .uint16 ∧ fromPandas "UInt16" = .ok (.int 16 false) ∧ fromArrow .uint16 = .ok (.int 16 false) :=
  ⟨.uint16n, rfl, rfl⟩
example : ∃ t u, fromPandas ("datetime64[" ++ "ns" ++ "]") = .ok t ∧ fromArrow .timestamp = .ok u := ⟨_, _, by rfl, by rfl⟩

end Verif.Tensor
