import Verif.Arrow.TableProps

/-
C84: the Arrow extension types of vector columns: construction, equality, hashing, metadata, registration
and what the IPC format keeps of them.
Models mplang/extend/arrow/vector.py:358-541, 592-615, util.py:18-40, compute.py:25-73.

Simplifications:
* Arrow's data types are those the code inspects: the eleven numeric types, strings, lists, fixed-size
  lists and the two-field struct of a sparse vector.
* Python arguments are typed values `Arg`: an integer or a data type, so that a call with its arguments
  swapped can be written down; pyarrow and the comparison operators raise TypeError on the wrong sort.
* the JSON text of the metadata is the dictionary it denotes (the codec itself is C02's and C69's).
-/
namespace Verif.Arrow

/-- The names of `_STR_TO_TYPE_MAP` (util.py:18-30), which are also the numeric types of Arrow. -/
inductive Num
  | float16 | float32 | float64
  | int8 | int16 | int32 | int64
  | uint8 | uint16 | uint32 | uint64
  deriving DecidableEq, Repr

/-- `pa.types.is_integer` (vector.py:462, 515; compute.py:58, 67). -/
def Num.isInt : Num → Bool
  | .float16 | .float32 | .float64 => false
  | _ => true

/-- Arrow data types, as far as the code looks. -/
inductive DType
  | num (n : Num)
  | str
  | list (e : DType)
  | fixedList (e : DType) (n : Int)
  | sparseStruct (indices values : DType)
  deriving DecidableEq, Repr

/-- `pa.types.is_integer(t)`. -/
def DType.isInt : DType → Bool
  | .num n => n.isInt
  | _ => false

/-- `pa.types.is_integer(t) or pa.types.is_floating(t)` (vector.py:375). -/
def DType.isNumeric : DType → Bool
  | .num _ => true
  | _ => false

/-- The keys of `_STR_TO_TYPE_MAP` (util.py:18-30). -/
def Num.name : Num → String
  | .float16 => "float16" | .float32 => "float32" | .float64 => "float64"
  | .int8 => "int8" | .int16 => "int16" | .int32 => "int32" | .int64 => "int64"
  | .uint8 => "uint8" | .uint16 => "uint16" | .uint32 => "uint32" | .uint64 => "uint64"

/-- `_str_to_type` (util.py:35-36): a dictionary lookup. -/
def strToType (s : String) : Except Err DType :=
  match [Num.float16, .float32, .float64, .int8, .int16, .int32, .int64, .uint8, .uint16, .uint32,
      .uint64].find? (fun n => n.name == s) with
  | some n => .ok (.num n)
  | none => .error .keyError

/-- `_type_to_str` (util.py:39-40): a lookup in the inverted dictionary. -/
def typeToStr : DType → Except Err String
  | .num n => .ok n.name
  | _ => .error .keyError

/-- The three extension names (vector.py:419, 451, 504). -/
inductive Kind
  | dense | sparse | oneHot
  deriving DecidableEq, Repr

/-- A `VectorType` instance (vector.py:382-384): its extension name, size, value type and storage type. -/
structure VType where
  kind : Kind
  size : Int
  value : DType
  storage : DType
  deriving DecidableEq, Repr

/-- `VectorType.__init__` (vector.py:361-384). -/
def mkVector (kind : Kind) (size : Int) (value storage : DType) : Except Err VType :=
  if size ≤ 0 then .error .valueError
  else if value.isNumeric then .ok ⟨kind, size, value, storage⟩
  else .error .typeError

/-- `DenseVectorType.__init__` (vector.py:421-424). `pa.list_(value_type, list_size=size)` treats a
negative size as a variable-length list, and a zero size as a list of zero elements; both are then
refused by the size check. -/
def mkDense (size : Int) (value : Option DType) : Except Err VType :=
  let v := value.getD (.num .float32)
  mkVector .dense size v (.fixedList v size)

/-- `SparseVectorType.__init__` (vector.py:453-467). -/
def mkSparse (size : Int) (value index : Option DType) : Except Err VType :=
  let v := value.getD (.num .float32)
  let i := index.getD (.num .int32)
  if i.isInt then mkVector .sparse size v (.sparseStruct (.list i) (.list v)) else .error .typeError

/-- `OneHotVectorType.__init__` (vector.py:506-517). -/
def mkOneHot (size : Int) (value index : Option DType) : Except Err VType :=
  let v := value.getD (.num .float32)
  let i := index.getD (.num .int32)
  if i.isInt then mkVector .oneHot size v i else .error .typeError

/-- `VectorType.__eq__` (vector.py:396-405). -/
def VType.eq (a b : VType) : Bool :=
  a.kind == b.kind && a.size == b.size && a.value == b.value && a.storage == b.storage

/-- The tuple that `VectorType.__hash__` hashes (vector.py:411-413). -/
def VType.hashKey (a : VType) : Kind × DType × Int := (a.kind, a.storage, a.size)

/-- The metadata the extension types put next to the storage type (vector.py:429-431, 472-475, 522-526). -/
structure Meta where
  size : Option Int := none
  value : Option String := none
  deriving DecidableEq, Repr

/-- `__arrow_ext_serialize__` (vector.py:429-431, 472-475, 522-526). -/
def serialize (t : VType) : Except Err Meta :=
  match t.kind with
  | .dense => .ok {}
  | .sparse => .ok { size := some t.size }
  | .oneHot => (typeToStr t.value).map fun s => { size := some t.size, value := some s }

/-- `__arrow_ext_deserialize__` (vector.py:434-442, 478-490, 529-537). A missing metadata key raises
KeyError. For a sparse vector, `storage_type["values"].type` is the type of the struct's field: the list
type, not the type of its elements. -/
def deserialize (kind : Kind) (storage : DType) (m : Meta) : Except Err VType :=
  match kind with
  | .dense =>
    match storage with
    | .fixedList e n => mkDense n (some e)
    | _ => .error .valueError
  | .sparse =>
    match storage with
    | .sparseStruct is vs =>
      match m.size with
      | some n => mkSparse n (some vs) (some is)
      | none => .error .keyError
    | _ => .error .valueError
  | .oneHot =>
    match m.size, m.value with
    | some n, some s => (strToType s).bind fun v => mkOneHot n (some v) (some storage)
    | _, _ => .error .keyError

/-- An argument of a constructor, as Python passes it. -/
inductive Arg
  | int (n : Int)
  | ty (t : DType)
  deriving DecidableEq, Repr

/-- A constructor called with a size and a value type in the order given: `pa.list_` refuses a value type
that is no data type and a list size that is no integer, and `size <= 0` refuses to compare a data type
(vector.py:421-424, 453-467, 506-517, 373). -/
def callType (kind : Kind) (size value : Arg) : Except Err VType :=
  match size, value with
  | .int n, .ty v =>
    match kind with
    | .dense => mkDense n (some v)
    | .sparse => mkSparse n (some v) none
    | .oneHot => mkOneHot n (some v) none
  | _, _ => .error .typeError

/-- One `try: pa.register_extension_type(...) except Exception: pass` (vector.py:598-611): the registry
gets the extension name when the type could be built and the name is not taken. -/
def tryRegister (reg : List Kind) (kind : Kind) (size value : Arg) : List Kind :=
  match callType kind size value with
  | .ok t => if t.kind ∈ reg then reg else t.kind :: reg
  | .error _ => reg

/-- `_register_vector_types()` (vector.py:594-611), run once at import. -/
def registered : List Kind :=
  let r1 := tryRegister [] .dense (.ty (.num .float32)) (.int 1)
  let r2 := tryRegister r1 .sparse (.ty (.num .float32)) (.int 1)
  tryRegister r2 .oneHot (.ty (.num .int32)) (.int 1)

/-- What a column's type is after a trip through Arrow's IPC format (used by `TableValue.to_json` and
`from_json`, table_impl.py): the extension type when its name is registered with the reader, the plain
storage type otherwise. Errors of `__arrow_ext_deserialize__` propagate. -/
def ipcType (reg : List Kind) (t : VType) : Except Err (DType ⊕ VType) :=
  (serialize t).bind fun m =>
    if t.kind ∈ reg then (deserialize t.kind t.storage m).map .inr else .ok (.inl t.storage)

/-- `one_hot` (compute.py:25-73), the types: the result's type, from the input array's type. -/
def oneHotType (array : DType) (numClasses : Int) (dtype itype : String) : Except Err VType :=
  if array.isInt = false then .error .typeError
  else
    (strToType dtype).bind fun v =>
      if itype = "" then mkOneHot numClasses (some v) (some array)
      else (strToType itype).bind fun i =>
        if i.isInt then mkOneHot numClasses (some v) (some i) else .error .typeError

/-! ## Properties -/

theorem strToType_name (n : Num) : strToType n.name = .ok (.num n) := by cases n <;> decide

/-- The two string tables of util.py are inverse to each other. -/
theorem type_names_roundtrip :
    (∀ t s, typeToStr t = .ok s → strToType s = .ok t) ∧ (∀ s t, strToType s = .ok t → typeToStr t = .ok s) := by
  constructor
  · intro t s h
    cases t <;> simp [typeToStr] at h
    subst h
    exact strToType_name _
  · intro s t h
    unfold strToType at h
    split at h
    · rename_i n hn
      simp only [Except.ok.injEq] at h
      subst h
      have := List.find?_some hn
      simp only [beq_iff_eq] at this
      rw [typeToStr, this]
    · cases h

example : strToType "int8" = .ok (.num .int8) ∧ strToType "string" = .error .keyError := by decide

/-- Constructed types (the instances the program can hold). -/
inductive Built : VType → Prop
  | dense (n v t) : mkDense n v = .ok t → Built t
  | sparse (n v i t) : mkSparse n v i = .ok t → Built t
  | oneHot (n v i t) : mkOneHot n v i = .ok t → Built t

theorem mkVector_ok {k n v s t} (h : mkVector k n v s = .ok t) :
    t = ⟨k, n, v, s⟩ ∧ 0 < n ∧ v.isNumeric = true := by
  unfold mkVector at h
  split at h
  · cases h
  · split at h
    · simp only [Except.ok.injEq] at h
      rename_i h1 h2
      exact ⟨h.symm, by omega, h2⟩
    · cases h

/-- **C84.** Every vector type that can be built has a positive size and numeric components. -/
theorem built_sound (t : VType) (h : Built t) : 0 < t.size ∧ ∃ n, t.value = .num n := by
  have key : ∀ {k n v s}, mkVector k n v s = .ok t → 0 < t.size ∧ ∃ n, t.value = .num n := by
    intro k n v s h
    obtain ⟨rfl, h1, h2⟩ := mkVector_ok h
    refine ⟨h1, ?_⟩
    cases v <;> simp [DType.isNumeric] at h2
    exact ⟨_, rfl⟩
  cases h with
  | dense n v _ h => exact key h
  | sparse n v i _ h =>
    unfold mkSparse at h
    simp only at h
    split at h
    · exact key h
    · cases h
  | oneHot n v i _ h =>
    unfold mkOneHot at h
    simp only at h
    split at h
    · exact key h
    · cases h

/-- **C84.** Equal vector types have equal hashes, and equality is exactly having the same kind, size,
component type and storage. -/
theorem vtype_eq_hash (a b : VType) : (a.eq b = true ↔ a = b) ∧ (a.eq b = true → a.hashKey = b.hashKey) := by
  have h1 : a.eq b = true ↔ a = b := by
    obtain ⟨k, s, v, t⟩ := a
    obtain ⟨k', s', v', t'⟩ := b
    simp [VType.eq, and_assoc]
  exact ⟨h1, fun h => by rw [h1.1 h]⟩

/-- **C84, metadata.** For a dense or a one-hot type that can be built, the metadata written next to the
storage type gives the same type back. -/
theorem meta_roundtrip_partial (t : VType) (h : Built t) (hk : t.kind ≠ .sparse) :
    ∃ m, serialize t = .ok m ∧ deserialize t.kind t.storage m = .ok t := by
  cases h with
  | dense n v _ h =>
    obtain ⟨rfl, h1, h2⟩ := mkVector_ok h
    refine ⟨{}, rfl, ?_⟩
    simp only [deserialize, mkDense, Option.getD]
    exact h
  | sparse n v i _ h =>
    unfold mkSparse at h
    simp only at h
    split at h
    · obtain ⟨rfl, _⟩ := mkVector_ok h
      exact absurd rfl hk
    · cases h
  | oneHot n v i _ h =>
    unfold mkOneHot at h
    simp only at h
    split at h
    · rename_i hi
      obtain ⟨rfl, h1, h2⟩ := mkVector_ok h
      generalize hv : v.getD (.num .float32) = w at *
      cases w <;> simp [DType.isNumeric] at h2
      rename_i nn
      refine ⟨{ size := some n, value := some nn.name }, rfl, ?_⟩
      simp only [deserialize, strToType_name, Except.bind, mkOneHot, Option.getD]
      rw [if_pos (by simpa [Option.getD] using hi)]
      exact h
    · cases h

example : ∃ t, mkOneHot 4 none (some (.num .int64)) = .ok t ∧ Built t ∧ t.kind ≠ .sparse :=
  ⟨⟨.oneHot, 4, .num .float32, .num .int64⟩, by decide, .oneHot 4 none (some (.num .int64)) _ (by decide), by decide⟩

/-- **C84 does not hold for sparse types**: reading the metadata of any sparse vector type back raises
TypeError, because the field types of the storage struct are list types where the constructor wants the
type of the elements (vector.py:488-490). -/
theorem sparse_meta_violated (t : VType) (h : Built t) (hk : t.kind = .sparse) :
    ∃ m, serialize t = .ok m ∧ deserialize t.kind t.storage m = .error .typeError := by
  cases h with
  | dense n v _ h =>
    obtain ⟨rfl, _⟩ := mkVector_ok h
    cases hk
  | sparse n v i _ h =>
    unfold mkSparse at h
    simp only at h
    split at h
    · obtain ⟨rfl, h1, h2⟩ := mkVector_ok h
      refine ⟨{ size := some n }, rfl, ?_⟩
      simp [deserialize, mkSparse, Option.getD, DType.isInt]
    · cases h
  | oneHot n v i _ h =>
    unfold mkOneHot at h
    simp only at h
    split at h
    · obtain ⟨rfl, _⟩ := mkVector_ok h
      cases hk
    · cases h

example : ∃ t, mkSparse 4 none none = .ok t ∧ Built t ∧ t.kind = .sparse :=
  ⟨⟨.sparse, 4, .num .float32, .sparseStruct (.list (.num .int32)) (.list (.num .float32))⟩, by decide,
    .sparse 4 none none _ (by decide), rfl⟩

/-- **C84 does not hold: no vector type is ever registered** (vector.py:598-611: size and value type are
swapped in all three calls, and the TypeError is swallowed), so a vector column that goes through the
Arrow IPC format always comes back as its storage: a one-hot column comes back as one column of indices. -/
theorem ipc_forgets_violated : registered = [] ∧
    ∀ t : VType, Built t → ipcType registered t = .ok (.inl t.storage) := by
  have hr : registered = [] := by decide
  refine ⟨hr, ?_⟩
  intro t h
  rw [hr]
  obtain ⟨_, nn, hv⟩ := built_sound t h
  unfold ipcType serialize
  cases t.kind <;> simp [hv, typeToStr, Except.bind, Except.map]

/-- With the two arguments in the declared order the three registrations would succeed, and a dense or
one-hot column would keep its type. -/
theorem ipc_keeps_if_registered_partial (t : VType) (h : Built t) (hk : t.kind ≠ .sparse) (reg : List Kind)
    (hreg : t.kind ∈ reg) : ipcType reg t = .ok (.inr t) := by
  obtain ⟨m, h1, h2⟩ := meta_roundtrip_partial t h hk
  unfold ipcType
  rw [h1]
  simp [Except.bind, hreg, h2, Except.map]

example : tryRegister [] .dense (.int 1) (.ty (.num .float32)) = [.dense] ∧
    tryRegister [] .oneHot (.int 1) (.ty (.num .int32)) = [.oneHot] := by decide

/-- The columns of a table after the trip, with nothing registered (vector.py:592-615): a one-hot
column without nulls is its indices.  With nulls the arrow column has a validity map, which `Col` does not have. -/
def ipcCol : Col Int → Option (Col Int)
  | .oneHot _ rows => (rows.mapM id).map Col.plain
  | c => some c

/-- The consequence for a user: a table that converts to a matrix of width 3 before the trip converts to a
matrix of width 1 after it. -/
theorem ipc_changes_matrix_violated :
    ∃ t t' : List (Col Int), tableToNumpy t = .ok [[0, 1, 0]] ∧ t.mapM ipcCol = some t' ∧ tableToNumpy t' = .ok [[1]] :=
  ⟨[.oneHot 3 [some 1]], [.plain [1]], by decide, rfl, by decide⟩

/-- **C84, `one_hot`.** The function accepts exactly integer arrays, known component types and (when given)
integer index types, with a positive number of classes; the result stores its indices in the array's own
type unless an index type is named, and its vectors have `num_classes` components. -/
theorem one_hot_type (array : DType) (n : Int) (dtype itype : String) (t : VType) :
    oneHotType array n dtype itype = .ok t ↔
      array.isInt = true ∧ 0 < n ∧ ∃ v, strToType dtype = .ok v ∧
        ∃ i, (if itype = "" then i = array else strToType itype = .ok i ∧ i.isInt = true) ∧
          t = ⟨.oneHot, n, v, i⟩ := by
  have numOf : ∀ v s, strToType s = .ok v → v.isNumeric = true := by
    intro v s h
    have := type_names_roundtrip.2 s v h
    cases v <;> simp [typeToStr] at this ⊢
    rfl
  have mk : ∀ v i, v.isNumeric = true → i.isInt = true →
      (mkOneHot n (some v) (some i) = .ok t ↔ 0 < n ∧ t = ⟨.oneHot, n, v, i⟩) := by
    intro v i hv hi
    simp only [mkOneHot, Option.getD, hi, if_true, mkVector, hv]
    by_cases h0 : n ≤ 0
    · rw [if_pos h0]
      constructor
      · intro h; cases h
      · intro h; omega
    · rw [if_neg h0]
      simp only [Except.ok.injEq]
      exact ⟨fun h => ⟨by omega, h.symm⟩, fun h => h.2.symm⟩
  unfold oneHotType
  by_cases ha : array.isInt = true
  · rw [if_neg (by simp [ha])]
    cases hv : strToType dtype with
    | error e => simp [Except.bind]
    | ok v =>
      have hvn := numOf v dtype hv
      simp only [Except.bind]
      by_cases hi : itype = ""
      · rw [if_pos hi, mk v array hvn ha]
        constructor
        · rintro ⟨h1, h2⟩
          exact ⟨ha, h1, v, rfl, array, by rw [if_pos hi], h2⟩
        · rintro ⟨_, h1, v', e, i, h3, h4⟩
          rw [if_pos hi] at h3
          cases e
          subst h3
          exact ⟨h1, h4⟩
      · rw [if_neg hi]
        cases hit : strToType itype with
        | error e =>
          constructor
          · intro h; cases h
          · rintro ⟨_, _, _, _, _, h3, _⟩
            rw [if_neg hi] at h3
            cases h3.1
        | ok i =>
          simp only
          by_cases hii : i.isInt = true
          · rw [if_pos hii, mk v i hvn hii]
            constructor
            · rintro ⟨h1, h2⟩
              exact ⟨ha, h1, v, rfl, i, by rw [if_neg hi]; exact ⟨rfl, hii⟩, h2⟩
            · rintro ⟨_, h1, v', e, i', h3, h4⟩
              rw [if_neg hi] at h3
              cases e
              cases h3.1
              exact ⟨h1, h4⟩
          · rw [if_neg hii]
            constructor
            · intro h; cases h
            · rintro ⟨_, _, _, _, i', h3, _⟩
              rw [if_neg hi] at h3
              cases h3.1
              exact absurd h3.2 hii
  · rw [if_pos (by simpa using ha)]
    constructor
    · intro h; cases h
    · intro h; exact absurd h.1 ha

example : oneHotType (.num .int64) 3 "float32" "" = .ok ⟨.oneHot, 3, .num .float32, .num .int64⟩ ∧
    oneHotType (.num .float32) 3 "float32" "" = .error .typeError := by decide

/-- `one_hot` never compares the indices with `num_classes` (compute.py:70-73): an index outside gives a
vector without any one. This is what the model of the array says about it. -/
theorem one_hot_unchecked_violated : (oneHotAsPy 3 (some 5) : List Int) = [0, 0, 0] := by decide

end Verif.Arrow
